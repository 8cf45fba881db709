import Verif.Model.Restore
import Verif.Model.Serde

/-!
# Times on the way into a snapshot (`src/tree.rs`)

Elsewhere in the model the metadata of what is on disk is given as the program holds it, with times that
are numbers of nanoseconds. Here is how the program gets there from what the system reports. What then
happens to them on the way to disk is in `Serde.instant`, and on the way back to the system in `toTimespec`.
-/

namespace Backpak

/-- What `stat(2)` reports of a path, as far as it is used. -/
structure Stat where
  mode : Nat
  size : Nat
  uid : Nat
  gid : Nat
  atime : Timespec
  mtime : Timespec
deriving DecidableEq, Repr

/-- `jiff::Timestamp::new`, in nanoseconds: from -9999-01-02T01:59:59Z to 9999-12-30T22:00:00.999999999Z. -/
def timestamp (sec nsec : Int) : Option Int :=
  if sec < -377705023201 ∨ 253402207200 < sec ∨ nsec < -999999999 ∨ 999999999 < nsec then none
  else if sec = -377705023201 ∧ nsec < 0 then none
  else some (sec * 10 ^ 9 + nsec)

/-- `get_metadata` on Unix once the path has been looked at (`src/tree.rs:237-251`). The system reports
nanoseconds from 0 up to a second, so that making them an `i32` (`src/tree.rs:241-242`) changes nothing. -/
def getMetadata (s : Stat) : Res Meta :=
  match timestamp s.atime.sec s.atime.nsec with
  | none => .error (.panic "called `Result::unwrap()` on an `Err` value")
  | some a =>
    match timestamp s.mtime.sec s.mtime.nsec with
    | none => .error (.panic "called `Result::unwrap()` on an `Err` value")
    | some m => .ok (.posix ⟨s.mode, if posixKind s.mode = .file then some s.size else none, s.uid, s.gid, a, m⟩)

end Backpak
