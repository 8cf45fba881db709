import Verif.Model.Pack

/-!
# A toy compressor

Used only in `example`s, to show that the laws asked of zstd can be met: each
byte is written as `1 b`, and a frame ends with `0`.
-/

namespace Backpak.Toy

/-- The toy frame of some content. -/
def frame (x : Bytes) : Bytes := x.flatMap (fun b => [1, b]) ++ [0]

/-- The toy stream reader, going on to further frames. -/
def stream : Bytes → Stream
  | [] => ⟨[], false⟩
  | [b] => ⟨[], b != 0⟩
  | b :: c :: r =>
    if b = 0 then stream (c :: r)
    else if b = 1 then ⟨c :: (stream r).data, (stream r).bad⟩
    else ⟨[], true⟩

theorem stream_frame (x rest : Bytes) :
    stream (frame x ++ rest) = ⟨x ++ (stream rest).data, (stream rest).bad⟩ := by
  induction x with
  | nil => cases rest <;> simp [frame, stream]
  | cons b x ih =>
    have : frame (b :: x) ++ rest = 1 :: b :: (frame x ++ rest) := by simp [frame]
    rw [this, stream, ih]
    simp

/-- The toy compressor meets every law. -/
def zstd : Zstd where
  Frame z x := z = frame x
  stream := stream
  frame_exists x := ⟨frame x, rfl⟩
  stream_prefix z x rest h := by subst h; rw [stream_frame]; exact List.prefix_append _ _
  stream_whole z x h := by
    subst h
    have := stream_frame x []
    simpa [stream] using this

/-- A toy hash: the first 28 bytes, padded with the length. It is not injective, but it
separates the small inputs used in examples. -/
def hash (x : Bytes) : ObjectId :=
  ⟨((x ++ List.replicate 28 (UInt8.ofNat x.length)).take 28), by simp⟩

end Backpak.Toy
