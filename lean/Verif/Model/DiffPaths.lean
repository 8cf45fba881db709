import Verif.Model.Restore
import Verif.Model.Snapshots

/-!
# Comparing a snapshot with its paths on the filesystem (`src/ui/diff.rs:48-112`)
-/

namespace Backpak

variable {Id : Type} [LinearOrder Id]

/-- `diff` of a snapshot with its paths (`src/ui/diff.rs:59,72-79,97-111`): what is there is hashed
without following symlinks and without leaving anything out, and files that look unmodified since the
snapshot are not read. `look` is what is there. -/
def diffPaths (C : Codec Id) (src : Source Id) (cut : Bytes → Nat) (look : Look) (withMeta : Bool)
    (s : Snapshot Id) : Res (List (DiffLine Id)) :=
  match forestFromRoot C src s.tree (newTreeCache C) with
  | .error e => .error e
  | .ok (F1, _) =>
    match gather look s.paths with
    | .error e => .error e
    | .ok d =>
      match forestFromFs C cut F1 (fun n => [n]) (some s.tree) d with
      | .error e => .error e
      | .ok (root, F2) => diffForests withMeta F1 F2 s.tree root

/-- `diff` from finding the snapshots on (`src/ui/diff.rs:57-112`); `snaps` are those of the
repository in order of time. With a second name, both snapshots are found before a tree is loaded here;
in the code the second is found after the first one's trees are loaded, so it is another error that is
reported if both fail. -/
def diffCommand (C : Codec ObjectId) (src : Source ObjectId) (cut : Bytes → Nat) (look : Look)
    (snaps : List (Snap ObjectId)) (withMeta : Bool) (first : Bytes) (second : Option Bytes) :
    Res (List (DiffLine ObjectId)) :=
  match findSnap snaps first with
  | .error e => .error e
  | .ok s1 =>
    match second with
    | none => diffPaths C src cut look withMeta s1.1
    | some name =>
      match findSnap snaps name with
      | .error e => .error e
      | .ok s2 => diffSnapshots C src withMeta s1.1 s2.1

end Backpak
