import Verif.Spec.Codec
import Verif.Spec.Walk
import Verif.Model.Walk

/-!
# A small file tree, hash and chunker for examples
-/

namespace Backpak.Demo

/-- A toy hash: a polynomial in the bytes, as 28 bytes. -/
def hash (x : Bytes) : ObjectId :=
  let v := x.foldl (fun a b => (a * 1000003 + b.toNat + 1) % 2 ^ 224) 0
  ⟨(List.range 28).map (fun i => UInt8.ofNat (v / 256 ^ i)), by simp⟩

/-- The real tree encoding with the toy hash. -/
def codec : Codec ObjectId := Codec.real hash

/-- A chunker that cuts as late as it may. -/
def cut (r : Bytes) : Nat := min r.length Chunk.maxSize

theorem cut_contract : Chunk.Contract cut where
  small r h := by
    have : Chunk.minSize ≤ Chunk.maxSize := by decide
    exact min_eq_left (by omega)
  low r h := by
    have : Chunk.minSize ≤ Chunk.maxSize := by decide
    exact le_min (by omega) this
  high r := min_le_right _ _
  within r := min_le_left _ _

def fileMd (size mtime : Nat) : Meta := .posix ⟨0o100644, some size, 0, 0, 0, mtime⟩
def dirMd : Meta := .posix ⟨0o040755, none, 0, 0, 0, 0⟩
def linkMd : Meta := .posix ⟨0o120777, none, 0, 0, 0, 0⟩

/-- Two files with the same bytes, a link, and a directory with a third file and an empty
directory. -/
def dir0 : Dir Bytes :=
  .leaf [97] (fileMd 3 5) (.file [1, 2, 3]) <|
  .leaf [98] (fileMd 3 6) (.file [1, 2, 3]) <|
  .leaf [108] linkMd (.link [97]) <|
  .dir [115] dirMd
    (.leaf [99] (fileMd 1 7) (.file [4]) <| .dir [101] dirMd .nil .nil) .nil

def pathOf (n : Name) : Path := [[104], n]

/-- `dir0` later: one file modified, one gone, one new. -/
def dir1 : Dir Bytes :=
  .leaf [97] (fileMd 3 5) (.file [1, 2, 3]) <|
  .leaf [98] (fileMd 2 9) (.file [8, 8]) <|
  .dir [115] dirMd
    (.leaf [99] (fileMd 1 7) (.file [4]) <| .leaf [100] (fileMd 1 9) (.file [5]) .nil) .nil

/-- Keeps everything but the link. -/
def filter (p : Path) : Bool := p != [[104], [108]]

def isOk {A : Type} : Res A → Bool
  | .ok _ => true
  | .error _ => false

theorem okFileMd (a b : Nat) (ha : a < 2 ^ 64) (hb : b < 2 ^ 63) : Serde.OkMeta (fileMd a b) := by
  simp only [fileMd, Serde.OkMeta, Serde.InI64, Option.some.injEq]
  refine ⟨by norm_num, by norm_num, by norm_num, fun n h => h ▸ ha, by norm_num, ?_⟩
  omega

theorem okDirMd : Serde.OkMeta dirMd := by
  simp only [dirMd, Serde.OkMeta, Serde.InI64]
  norm_num
  intro n h; cases h

theorem okLinkMd : Serde.OkMeta linkMd := by
  simp only [linkMd, Serde.OkMeta, Serde.InI64]
  norm_num
  intro n h; cases h

theorem dir0_fits : Spec.Fits dir0 :=
  ⟨by decide, okFileMd _ _ (by decide) (by decide), by simp [Spec.LeafFits],
   by decide, okFileMd _ _ (by decide) (by decide), by simp [Spec.LeafFits],
   by decide, okLinkMd, by simp [Spec.LeafFits],
   by decide, okDirMd, by decide, ⟨by decide, okFileMd _ _ (by decide) (by decide), by simp [Spec.LeafFits],
    by decide, okDirMd, by decide, trivial, trivial⟩, trivial⟩

theorem dir1_fits : Spec.Fits dir1 :=
  ⟨by decide, okFileMd _ _ (by decide) (by decide), by simp [Spec.LeafFits],
   by decide, okFileMd _ _ (by decide) (by decide), by simp [Spec.LeafFits],
   by decide, okDirMd, by decide, ⟨by decide, okFileMd _ _ (by decide) (by decide), by simp [Spec.LeafFits],
    by decide, okFileMd _ _ (by decide) (by decide), by simp [Spec.LeafFits], trivial⟩, trivial⟩

theorem dir0_sorted : dir0.Sorted := by
  refine ⟨by decide, by decide, by decide, by decide, ⟨by decide, by decide, trivial, trivial⟩, trivial⟩

theorem dir1_sorted : dir1.Sorted := by
  refine ⟨by decide, by decide, by decide, ⟨by decide, by decide, trivial⟩, trivial⟩

end Backpak.Demo
