import Verif.Model.Snapshots

/-!
# The forget command (`src/ui/forget.rs`)
-/

namespace Backpak

variable {Id : Type} [LinearOrder Id]

/-- `forget_snapshot` (`src/ui/forget.rs:104-119`): the repository, and whether that worked. `able`
says whether the backend manages to remove a given file; removing a file that is not there fails. -/
def forgetOne (able : Id → Bool) (dry : Bool) (id : Id) (R : Repo Id) : Repo Id × Bool :=
  if dry then (R, true)
  else if (R.snapshots.get? id).isSome && able id then
    ({ R with snapshots := BMap.erase id R.snapshots }, true)
  else (R, false)

/-- The loop of `forget_duplicate_snapshots` (`src/ui/forget.rs:61-78`). `last` is
`last_unique_snapshot_and_tree`, of which only the tree matters. -/
def forgetDupsLoop (able : Id → Bool) (dry : Bool) :
    Option Id → List (Snap Id) → Repo Id × Bool → Repo Id × Bool
  | _, [], st => st
  | none, s :: l, st => forgetDupsLoop able dry (some s.1.tree) l st
  | some t, s :: l, (R, ok) =>
    if s.1.tree ≠ t then forgetDupsLoop able dry (some s.1.tree) l (R, ok)
    else
      let (R', ok') := forgetOne able dry s.2 R
      forgetDupsLoop able dry (some t) l (R', ok && ok')

/-- `forget_duplicate_snapshots` (`src/ui/forget.rs:53-80`). -/
def forgetDups (able : Id → Bool) (dry : Bool) (snaps : List (Snap Id)) (R : Repo Id) : Repo Id × Bool :=
  forgetDupsLoop able dry none snaps (R, true)

/-- `forget_snapshot_list` (`src/ui/forget.rs:82-102`). A `LAST~<n>` with too large a number panics
in `find`, which ends the program there; here it only fails. -/
def forgetList (able : ObjectId → Bool) (dry : Bool) (snaps : List (Snap ObjectId)) :
    List Bytes → Repo ObjectId × Bool → Repo ObjectId × Bool
  | [], st => st
  | a :: args, (R, ok) =>
    match findSnap snaps a with
    | .error _ => forgetList able dry snaps args (R, false)
    | .ok s =>
      let (R', ok') := forgetOne able dry s.2 R
      forgetList able dry snaps args (R', ok && ok')

/-- `forget::run` (`src/ui/forget.rs:26-50`) on the loaded snapshots. -/
def forget (able : ObjectId → Bool) (dry : Bool) (snaps : List (Snap ObjectId)) (args : List Bytes)
    (R : Repo ObjectId) : Repo ObjectId × Bool :=
  if args = [ascii "DUPLICATES"] then forgetDups able dry snaps R
  else forgetList able dry snaps args (R, true)

end Backpak
