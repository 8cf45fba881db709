import Verif.Spec.Repo

/-!
# Reading a repository piece by piece
-/

namespace Backpak

open Spec

variable {Id : Type}

/-- What others may have done to a repository in the meantime, if they only add packs and indexes: every pack is still
there, and what was listed still is. They may have added and removed snapshots. -/
structure AddedTo (R R' : Repo Id) : Prop where
  packs : ∀ e ∈ R.packs, e ∈ R'.packs
  listed : ∀ q m, Listed R.indexes q m → Listed R'.indexes q m

end Backpak
