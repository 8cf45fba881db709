import Verif.Model.Forget

/-!
# What the forget command says it removes (`src/ui/forget.rs`)

The IDs of the messages `Would remove` (dry run) and `Forgetting` (otherwise), in order
(`forget_snapshot`, `src/ui/forget.rs:104-110`). They are given before anything is tried, and which there are depends
neither on what is in the repository by then nor on how removing went. As in `Model/Forget`, an argument that makes
`find` panic is one that is not found.
-/

namespace Backpak

variable {Id : Type} [LinearOrder Id]

/-- In the loop of `forget_duplicate_snapshots` (`src/ui/forget.rs:61-78`). -/
def dupsTold : Option Id → List (Snap Id) → List Id
  | _, [] => []
  | none, s :: l => dupsTold (some s.1.tree) l
  | some t, s :: l => if s.1.tree ≠ t then dupsTold (some s.1.tree) l else s.2 :: dupsTold (some t) l

/-- In `forget_snapshot_list` (`src/ui/forget.rs:82-102`). -/
def listTold (snaps : List (Snap ObjectId)) : List Bytes → List ObjectId
  | [] => []
  | a :: args =>
    match findSnap snaps a with
    | .error _ => listTold snaps args
    | .ok s => s.2 :: listTold snaps args

/-- In `run` (`src/ui/forget.rs:26-50`). -/
def forgetTold (snaps : List (Snap ObjectId)) (args : List Bytes) : List ObjectId :=
  if args = [ascii "DUPLICATES"] then dupsTold none snaps else listTold snaps args

end Backpak
