import Verif.Model.Types

/-!
# Cutting files into chunks (`src/chunk.rs`)

The content-defined cut point itself (FastCDC) is a parameter `cut`: given the rest of
the file, how long the next chunk is.
-/

namespace Backpak.Chunk

/-- `fastcdc::v2020::Chunk`: offset and length (its hash is unused). -/
structure Cut where
  offset : Nat
  length : Nat
deriving DecidableEq, Repr

/-- Minimum, target and maximum chunk size (`src/chunk.rs:47-49`). -/
def minSize : Nat := 1024 * 512
/-- See `minSize`. -/
def maxSize : Nat := 1024 * 1024 * 8

/-- The contract of a FastCDC cut function with these sizes: all that remains if that is
no more than the minimum, otherwise between the minimum and the maximum, and never past
the end. -/
structure Contract (cut : Bytes → Nat) : Prop where
  small : ∀ r, r.length ≤ minSize → cut r = r.length
  low : ∀ r, minSize < r.length → minSize ≤ cut r
  high : ∀ r, cut r ≤ maxSize
  within : ∀ r, cut r ≤ r.length

/-- The `FastCDC` iterator (`src/chunk.rs:46-51,106,122`): cut until nothing remains. `n`
is the offset of `r` in the file. An empty cut ends the iteration, as in the library. -/
def cuts (cut : Bytes → Nat) (n : Nat) (r : Bytes) : List Cut :=
  if _h : 0 < cut r ∧ cut r ≤ r.length then
    ⟨n, cut r⟩ :: cuts cut (n + cut r) (r.drop (cut r))
  else []
termination_by r.length
decreasing_by simp; omega

/-- `chunk_to_blob` (`src/chunk.rs:162-176`). -/
def toBlob {Id : Type} (H : Bytes → Id) (file : Bytes) (c : Cut) : Blob Id :=
  let span := (file.drop c.offset).take c.length
  ⟨span, H span, .chunk⟩

/-- `chunk_file` for a small file (`src/chunk.rs:84-108`). -/
def chunkFile {Id : Type} (H : Bytes → Id) (cut : Bytes → Nat) (file : Bytes) : List (Blob Id) :=
  (cuts cut 0 file).map (toBlob H file)

/-! ## Large files: two threads (`ThreadedChunker`, `src/chunk.rs:110-137`) -/

/-- State of the two threads, their two bounded channels and the consumer. -/
structure TState (Id : Type) where
  /-- Cuts the first thread has yet to send; `none` once it has dropped its sender. -/
  toCut : Option (List Cut)
  /-- Channel of cuts, oldest first (`src/chunk.rs:118`). -/
  cutQ : List Cut
  /-- The blob the second thread has hashed and is about to send; `none` when it is about to
  receive. -/
  hand : Option (Blob Id)
  /-- The second thread is running (its sender is alive). -/
  hashing : Bool
  /-- Channel of blobs (`src/chunk.rs:119`). -/
  blobQ : List (Blob Id)
  /-- What the consumer has received. -/
  got : List (Blob Id)
  /-- The consumer has been told there is no more. -/
  done : Bool

/-- Both channels' capacity (`src/chunk.rs:118-119`). -/
def capacity : Nat := 128

/-- At the start (`src/chunk.rs:113-136`). -/
def tinit {Id : Type} (cut : Bytes → Nat) (file : Bytes) : TState Id :=
  ⟨some (cuts cut 0 file), [], none, true, [], [], false⟩

/-- One step of one of the threads. The consumer never drops its end (it is
`backup`'s loop, which reads to the end). -/
inductive TStep {Id : Type} (H : Bytes → Id) (file : Bytes) : TState Id → TState Id → Prop
  /-- First thread sends a cut (`src/chunk.rs:122-126`). -/
  | sendCut {c l q hand hashing blobQ got done} : q.length < capacity →
      TStep H file ⟨some (c :: l), q, hand, hashing, blobQ, got, done⟩
        ⟨some l, q ++ [c], hand, hashing, blobQ, got, done⟩
  /-- First thread finishes and drops its sender (`src/chunk.rs:127`). -/
  | cutDone {q hand hashing blobQ got done} :
      TStep H file ⟨some [], q, hand, hashing, blobQ, got, done⟩
        ⟨none, q, hand, hashing, blobQ, got, done⟩
  /-- Second thread receives a cut and hashes it (`src/chunk.rs:129-130`). -/
  | recvCut {t c q blobQ got done} :
      TStep H file ⟨t, c :: q, none, true, blobQ, got, done⟩
        ⟨t, q, some (toBlob H file c), true, blobQ, got, done⟩
  /-- Second thread sends a blob (`src/chunk.rs:130`). -/
  | sendBlob {t q b blobQ got done} : blobQ.length < capacity →
      TStep H file ⟨t, q, some b, true, blobQ, got, done⟩ ⟨t, q, none, true, blobQ ++ [b], got, done⟩
  /-- Second thread finds the channel empty and closed, and exits (`src/chunk.rs:129`). -/
  | hashDone {blobQ got done} :
      TStep H file ⟨none, [], none, true, blobQ, got, done⟩ ⟨none, [], none, false, blobQ, got, done⟩
  /-- The consumer receives a blob (`src/chunk.rs:135`). -/
  | recvBlob {t q hand hashing b blobQ got} :
      TStep H file ⟨t, q, hand, hashing, b :: blobQ, got, false⟩
        ⟨t, q, hand, hashing, blobQ, got ++ [b], false⟩
  /-- The consumer finds the channel empty and closed: the iterator ends. -/
  | finish {t q hand got} :
      TStep H file ⟨t, q, hand, false, [], got, false⟩ ⟨t, q, hand, false, [], got, true⟩

end Backpak.Chunk
