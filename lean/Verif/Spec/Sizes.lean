import Verif.Spec.Repo

/-!
# How much a file tree holds
-/

namespace Backpak.Spec

/-- The files in a file tree, in order, with their sizes. -/
def filesIn : Path → Dir Bytes → List (Path × Nat)
  | _, .nil => []
  | p, .leaf n _ (.file x) rest => (p ++ [n], x.length) :: filesIn p rest
  | p, .leaf _ _ _ rest => filesIn p rest
  | p, .dir n _ sub rest => filesIn (p ++ [n]) sub ++ filesIn p rest

/-- The size of all files. -/
def fileBytes : Dir Bytes → Nat
  | .nil => 0
  | .leaf _ _ (.file x) rest => x.length + fileBytes rest
  | .leaf _ _ _ rest => fileBytes rest
  | .dir _ _ sub rest => fileBytes sub + fileBytes rest

/-- No directory below is empty. -/
def NoneEmpty : Dir Bytes → Prop
  | .nil => True
  | .leaf _ _ _ rest => NoneEmpty rest
  | .dir _ _ sub rest => sub ≠ .nil ∧ NoneEmpty sub ∧ NoneEmpty rest

variable {Id : Type}

/-- The size of all trees below the nodes of a tree, each as often as it occurs, `w` being the size
of one. -/
inductive TreeBytes (w : Id → Tree Id → Nat) (T : Id → Tree Id → Prop) : Tree Id → Nat → Prop
  | nil : TreeBytes w T [] 0
  | file {n cs md t k} : TreeBytes w T t k → TreeBytes w T ((n, ⟨.file cs, md⟩) :: t) k
  | link {n tgt md t k} : TreeBytes w T t k → TreeBytes w T ((n, ⟨.link tgt, md⟩) :: t) k
  | dir {n id md t t' k' k} : T id t' → TreeBytes w T t' k' → TreeBytes w T t k →
      TreeBytes w T ((n, ⟨.dir id, md⟩) :: t) (w id t' + k' + k)

/-- Blob `b` is a tree of a file tree or a chunk of one of its files. -/
def Used (C : Codec Id) (R : Repo Id) (root : Id) (b : Blob Id) : Prop :=
  Has C R b ∧ ∃ u t, Reaches (TreeAt C R) root u ∧ TreeAt C R u t ∧
    (b.id = u ∨ ∃ n cs md, (n, ⟨.file cs, md⟩) ∈ t ∧ b.id ∈ cs)

end Backpak.Spec
