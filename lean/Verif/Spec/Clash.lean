import Verif.Spec.Leftover

/-!
# What it takes for IDs to identify blobs
-/

namespace Backpak.Spec

variable {Id : Type}

/-- A blob in a pack of the repository's live indexes, or of what an interrupted backup left. -/
def Stored (w : World Id) (b : Blob Id) : Prop :=
  ∃ p bs, (LivePack w.repo p bs ∨ WipPack w p bs) ∧ b ∈ bs

/-- The empty tree, which need not be stored. -/
def emptyBlob (C : Codec Id) : Blob Id := ⟨C.encTree [], C.emptyId, .tree⟩

/-- Among these blobs an ID identifies the blob: no two hash alike, nor like the empty tree, and
none is a chunk with the bytes of a tree. (The second can fail without any hash collision: see
`C20.chunk_like_tree`.) -/
structure Unmixed (C : Codec Id) (U : Blob Id → Prop) : Prop where
  hash : ∀ b b', U b → U b' ∨ b' = emptyBlob C → C.hash b.data = C.hash b'.data → b.data = b'.data
  kind : ∀ b b', U b → U b' → b.data = b'.data → b.kind = b'.kind

end Backpak.Spec
