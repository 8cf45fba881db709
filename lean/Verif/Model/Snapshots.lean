import Verif.Model.Repo
import Verif.Model.Hashing
import Mathlib.Data.List.Sort

/-!
# Lists of snapshots (`src/snapshot.rs:205-302`, `src/ui/backup.rs:350-360`)
-/

namespace Backpak

/-- A loaded snapshot and its ID. -/
abbrev Snap (Id : Type) := Snapshot Id × Id

/-- A snapshot was taken no later than another. -/
abbrev noLater {Id : Type} (a b : Snap Id) : Prop := a.1.time ≤ b.1.time

/-- `sort_by_key(|(snap, _)| snap.time.timestamp())` (`src/snapshot.rs:231,299`). All stable sorts
give the same list; this is one. -/
def sortSnaps {Id : Type} (l : List (Snap Id)) : List (Snap Id) := l.insertionSort noLater

/-- `load_chronologically` (`src/snapshot.rs:205-234`): the snapshots in the order they happened
to be loaded in, sorted. -/
def loadChronologically {Id : Type} (loaded : List (Snap Id)) : List (Snap Id) := sortSnaps loaded

/-- `parent_snapshot` (`src/ui/backup.rs:350-360`). -/
def parentSnapshot {Id : Type} (paths : BSet Path) (snaps : List (Snap Id)) : Option (Snapshot Id) :=
  (snaps.reverse.find? (fun s => s.1.paths = paths)).map Prod.fst

/-- What follows `LAST` or `HEAD`: `(?:(~)|(?:~([0-9]+)))?$` (`src/snapshot.rs:255-266`). The
number is parsed as a `usize`. -/
def lastSuffix : Bytes → Option (Res Nat)
  | [] => some (.ok 0)
  | [c] => if c = 126 then some (.ok 1) else none
  | c :: d :: ds =>
    if c = 126 ∧ (d :: ds).all (fun b => decide (48 ≤ b.toNat ∧ b.toNat ≤ 57)) then
      let n := ofDigits 10 ((d :: ds).map (fun b => b.toNat - 48))
      some (if n < 2 ^ 64 then .ok n else .error (.panic "number too large to fit in target type"))
    else none

/-- `LAST_REGEX` (`src/snapshot.rs:255-256`). -/
def lastIndex (name : Bytes) : Option (Res Nat) :=
  if name.take 4 = ascii "LAST" ∨ name.take 4 = ascii "HEAD" then lastSuffix (name.drop 4) else none

/-- `snapshot::find` (`src/snapshot.rs:237-286`). -/
def findSnap (snaps : List (Snap ObjectId)) (name : Bytes) : Res (Snap ObjectId) :=
  match ObjectId.parse name with
  | some id =>
    match snaps.find? (fun s => s.2 = id) with
    | some s => .ok s
    | none => .error (.err "No snapshot")
  | none =>
    match lastIndex name with
    | some (.error e) => .error e
    | some (.ok n) =>
      match snaps.reverse[n]? with
      | some s => .ok s
      | none => .error (.err "Don't have snapshots yet")
    | none =>
      if name.length < 4 then .error (.err "Provide a snapshot ID with at least 4 digits!")
      else
        match snaps.filter (fun s => name.isPrefixOf s.2.display) with
        | [] => .error (.err "No snapshots start with")
        | [s] => .ok s
        | _ => .error (.err "different snapshots start with")

/-- `Vec::dedup_by` on IDs (`src/snapshot.rs:300`): drop an element equal to the one kept before
it. -/
def dedupAfter {Id : Type} [DecidableEq Id] (prev : Id) : List (Snap Id) → List (Snap Id)
  | [] => []
  | s :: l => if s.2 = prev then dedupAfter prev l else s :: dedupAfter s.2 l

/-- See `dedupAfter`. -/
def dedupSnaps {Id : Type} [DecidableEq Id] : List (Snap Id) → List (Snap Id)
  | [] => []
  | s :: l => s :: dedupAfter s.2 l

/-- The loop of `from_args_list` (`src/snapshot.rs:293-297`). -/
def findAll (snaps : List (Snap ObjectId)) : List Bytes → Res (List (Snap ObjectId))
  | [] => .ok []
  | a :: args =>
    match findSnap snaps a with
    | .error e => .error e
    | .ok s =>
      match findAll snaps args with
      | .error e => .error e
      | .ok l => .ok (s :: l)

/-- `from_args_list` (`src/snapshot.rs:289-302`). -/
def fromArgsList (snaps : List (Snap ObjectId)) (args : List Bytes) : Res (List (Snap ObjectId)) :=
  (findAll snaps args).map (fun l => dedupSnaps (sortSnaps l))

end Backpak
