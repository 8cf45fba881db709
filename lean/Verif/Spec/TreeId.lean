import Verif.Spec.Since

/-!
# The ID of a file tree
-/

namespace Backpak.Spec

variable {Id : Type}

/-- The nodes that stand for a file tree, with files cut by the chunker. Special files have none. -/
def treeOf (C : Codec Id) (cut : Bytes → Nat) : Dir Bytes → Tree Id
  | .nil => []
  | .leaf n md l r =>
    match l with
    | .file x => (n, ⟨.file ((Chunk.chunkFile C.hash cut x).map Blob.id), md⟩) :: treeOf C cut r
    | .link t => (n, ⟨.link t, md⟩) :: treeOf C cut r
    | .other => treeOf C cut r
  | .dir n md s r => (n, ⟨.dir (C.hash (C.encTree (treeOf C cut s))), md⟩) :: treeOf C cut r

/-- The ID of a file tree: a function of what is in it, and of nothing else. -/
def idOf (C : Codec Id) (cut : Bytes → Nat) (d : Dir Bytes) : Id := C.hash (C.encTree (treeOf C cut d))

/-- No two directories of these trees have nodes that differ and hash alike. -/
def DirsDiffer (C : Codec Id) (cut : Bytes → Nat) (d d' : Dir Bytes) : Prop :=
  ∀ s s', (s = d ∨ SubDir s d) → (s' = d' ∨ SubDir s' d') → idOf C cut s = idOf C cut s' →
    treeOf C cut s = treeOf C cut s'

/-- All snapshots of a repository have their files cut by this chunker. -/
def CutAlike [LinearOrder Id] (C : Codec Id) (cut : Bytes → Nat) (R : Repo Id) : Prop :=
  ∀ i s, (i, s) ∈ R.snapshots → ∃ d, HoldsCut C R cut s.tree d

end Backpak.Spec
