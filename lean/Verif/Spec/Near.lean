import Verif.Model.Chunk
import Verif.Spec.Live
import Verif.Model.Source

/-!
# Files that differ in one place, and files whose chunks are stored
-/

namespace Backpak.Spec

open Chunk

variable {Id : Type}

/-- Where a chunk ends depends on no more than the bytes up to the largest size a chunk may have. (FastCDC
looks no further.) -/
def LooksAhead (cut : Bytes → Nat) : Prop := ∀ r r', r.take maxSize = r'.take maxSize → cut r = cut r'

/-- One chunk of the file ends, and the next begins, after `k` bytes. -/
def CutAt (H : Bytes → Id) (cut : Bytes → Nat) (file : Bytes) (k : Nat) : Prop :=
  ∃ l, l <+: chunkFile H cut file ∧ (l.flatMap Blob.data).length = k

/-- Every chunk of a file with these bytes is listed in an index that counts. -/
def Known (C : Codec Id) (cut : Bytes → Nat) (R : Repo Id) (x : Bytes) : Prop :=
  ∀ b ∈ chunkFile C.hash cut x, ∃ p m, Listed R.indexes p m ∧ b.id ∈ m.map Entry.id

/-- The bytes in a list of blobs. -/
def totalBytes (l : List (Blob Id)) : Nat := (l.map fun b => b.data.length).sum

end Backpak.Spec
