import Verif.Model.Types

/-!
# The packer loop (`pack::pack`, `src/pack.rs:74-199`)

Compressed sizes come from outside: for each blob, what `check_size` and
`flush_and_check_size` would report after writing it. The estimate of how much
more to write (`src/pack.rs:158-160`, 64-bit float arithmetic) is a parameter.
Sending packs on to the uploader and indexer is modelled in `Verif.Model.Pipeline`.
-/

namespace Backpak.Packer

/-- The loop's variables (`src/pack.rs:83-87`). -/
structure State (Id : Type) where
  /-- Blobs written to the current pack. -/
  cur : List (Blob Id)
  /-- `pass_bytes_written`. -/
  pass : Nat
  /-- `bytes_in_pack`. -/
  inPack : Nat
  /-- `bytes_before_next_check`. -/
  next : Nat

/-- A new pack (`src/pack.rs:83-87,182-185`). -/
def init {Id : Type} (target : Nat) : State Id := ⟨[], 0, 0, target⟩

/-- A blob together with what the two size measurements would say after writing it. -/
structure Step (Id : Type) where
  blob : Blob Id
  /-- `check_size` (`src/pack.rs:258-261`). -/
  size : Nat
  /-- `flush_and_check_size` (`src/pack.rs:248-252`). -/
  flushed : Nat

/-- What the packer does, in order: the blobs it writes, the measurements it takes, and
where it ends a pack. -/
inductive Event (Id : Type)
  | wrote (b : Blob Id)
  | sized (n : Nat)
  | flushed (n : Nat)
  | ended

/-- One iteration (`src/pack.rs:90-187`): the new state and the events. `est inPack
compressed target` is the estimate of `src/pack.rs:158-160`. Writing a blob of 4 GiB or
more panics (`src/pack.rs:234`). -/
def iter {Id : Type} (target : Nat) (est : Nat → Nat → Nat → Nat) (st : State Id) (s : Step Id) :
    Res (State Id × List (Event Id)) :=
  if 2 ^ 32 ≤ s.blob.data.length then .error (.panic "assertion failed: blob_length")
  else
    let cur := st.cur ++ [s.blob]
    let pass := st.pass + s.blob.data.length
    let inPack := st.inPack + s.blob.data.length
    if target ≤ s.size then
      .ok (init target, [.wrote s.blob, .sized s.size, .flushed s.flushed, .ended])
    else if st.next ≤ pass then
      if target ≤ s.flushed then
        .ok (init target, [.wrote s.blob, .sized s.size, .flushed s.flushed, .ended])
      else
        .ok (⟨cur, 0, inPack, est inPack s.flushed target⟩,
          [.wrote s.blob, .sized s.size, .flushed s.flushed])
    else .ok (⟨cur, pass, inPack, st.next⟩, [.wrote s.blob, .sized s.size])

/-- The whole loop and the final partial pack (`src/pack.rs:90-198`). -/
def run {Id : Type} (target : Nat) (est : Nat → Nat → Nat → Nat) :
    State Id → List (Step Id) → Res (List (Event Id))
  | st, [] => .ok (if 0 < st.inPack then [.ended] else [])
  | st, s :: l =>
    match iter target est st s with
    | .error f => .error f
    | .ok (st', ev) =>
      match run target est st' l with
      | .error f => .error f
      | .ok evs => .ok (ev ++ evs)

/-- The packs finalised: the blobs written between the ends (`src/pack.rs:172,189`).
Blobs never followed by an end are in a temporary file that is dropped. -/
def packs {Id : Type} : List (Blob Id) → List (Event Id) → List (List (Blob Id))
  | _, [] => []
  | cur, .wrote b :: l => packs (cur ++ [b]) l
  | cur, .ended :: l => cur :: packs [] l
  | cur, _ :: l => packs cur l

end Backpak.Packer
