import Verif.Spec.Sizes
import Verif.Spec.Walk
import Verif.Model.Snapshots

/-!
# How much a backup, a copy or a prune goes through
-/

namespace Backpak.Spec

/-- Every file's metadata gives the length of the file. -/
def SizesRight : Dir Bytes → Prop
  | .nil => True
  | .leaf _ md (.file x) rest => md.size = some x.length ∧ SizesRight rest
  | .leaf _ _ _ rest => SizesRight rest
  | .dir _ _ sub rest => SizesRight sub ∧ SizesRight rest

variable {Id : Type}

/-- The bytes stored for a tree: none for the empty one. -/
def storedLength (C : Codec Id) (_ : Id) (t : Tree Id) : Nat :=
  match t with
  | [] => 0
  | e :: r => (C.encTree (e :: r)).length

/-- The tree with an ID is one that hashes to it. -/
def HashedAs (C : Codec Id) (id : Id) (t : Tree Id) : Prop := id = C.hash (C.encTree t)

/-- The bytes of a tree. Unlike a backup, copying and pruning store the empty one too. -/
def encodedLength (C : Codec Id) (_ : Id) (t : Tree Id) : Nat := (C.encTree t).length

/-- `GoneThrough C R filter snaps news n`: of each of `snaps` in `R` there is one of `news`, the same but for its tree,
and going through what is kept of their files, and through the trees of the new one, takes `n` bytes in all. -/
inductive GoneThrough (C : Codec Id) (R : Repo Id) (filter : Path → Bool) :
    List (Snap Id) → List (Snapshot Id) → Nat → Prop
  | nil : GoneThrough C R filter [] [] 0
  | cons {s : Snap Id} {rest root news d t k n} : Holds C R s.1.tree d → HashedAs C root t →
      TreeBytes (encodedLength C) (HashedAs C) t k → GoneThrough C R filter rest news n →
      GoneThrough C R filter (s :: rest) ({ s.1 with tree := root } :: news)
        (fileBytes (Spec.keep filter (fun n => [n]) d) + ((C.encTree t).length + k) + n)

end Backpak.Spec
