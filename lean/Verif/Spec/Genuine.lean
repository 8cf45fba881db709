import Verif.Spec.Repo

/-!
# What a damaged repository can serve

The files of a repository can be anything: what is left of them after a disk error, or what somebody
has put in their place.
-/

namespace Backpak.Spec

variable {Id : Type}

/-- Some pack, read and decompressed, has these bytes in it. -/
def Served (src : Source Id) (x : Bytes) : Prop := ∃ p s, src.read p = .ok s ∧ x <:+: s.data

/-- Nothing that `src` serves passes for a blob of `R` without being it: no bytes in its packs have the
hash of a blob that can be found in `R` and are not that blob's bytes. -/
def NoForgery (C : Codec Id) (R : Repo Id) (src : Source Id) : Prop :=
  ∀ x b, Served src x → Has C R b → C.hash x = b.id → x = b.data

end Backpak.Spec
