import Verif.Model.Walk
import Verif.Model.Snapshots
import Verif.Model.Pipeline
import Verif.Model.Resume

/-!
# The backup command (`src/ui/backup.rs:72-288`)
-/

namespace Backpak

open Pipeline

variable {Id : Type} [LinearOrder Id]

/-- `find_resumable(…)?.unwrap_or_default()` (`src/ui/backup.rs:135-138`, `src/ui/copy.rs:83-86`):
the index to start from and the packs to upload first. -/
def resumeFrom (w : World Id) : Res (Index Id × List Id) :=
  (findResumable w).map (fun r => r.getD (Index.empty, []))

/-- The blob IDs an index lists, as a list. -/
def listedIds (x : Index Id) : List Id := x.packs.flatMap (fun e => e.2.map Entry.id)

/-- What a backup is given. -/
structure BackupArgs where
  /-- The canonical paths (`src/ui/backup.rs:75-83`). -/
  paths : BSet Path
  /-- What is found at them, in path order. Their last components are distinct
  (`src/ui/backup.rs:336-348`), so `pathOf` gives an entry's path by name. -/
  fs : Dir Bytes
  pathOf : Name → Path
  /-- The skips (`src/filter.rs`). -/
  filter : Path → Bool
  allowEmpty : Bool
  /-- `--allow-repeat` (`src/ui/backup.rs:44-46`). -/
  allowRepeat : Bool := false
  dryRun : Bool
  author : Bytes
  tags : BSet Bytes
  /-- The clock at the end of the backup, and the time zone. -/
  now : Int
  tz : Bytes

/-- What a command does once it has read what it needs: the index the pipeline starts from, what
the main thread sends it, and what follows the join. -/
structure Plan (Id : Type) where
  start : Index Id
  main : List (Op Id)
  post : Res (List (Post Id))

/-- The operations after the join; none if the command fails there. -/
def Plan.posts (p : Plan Id) : List (Post Id) :=
  match p.post with
  | .ok l => l
  | .error _ => []

/-- The parent's trees (`src/ui/backup.rs:125-130`). -/
def parentForest (C : Codec Id) (src : Source Id) (parent : Option (Snapshot Id)) : Res (Forest Id) :=
  match parent with
  | none => .ok []
  | some p => (forestFromRoot C src p.tree (newTreeCache C)).map Prod.fst

/-- What follows the join (`src/ui/backup.rs:207-288`). The assertions are about byte counts that
are zero exactly when nothing was sent and, unless this is a dry run, nothing resumed.
`args.allow_repeat` is not consulted. -/
def backupPost (C : Codec Id) (a : BackupArgs) (snaps : List (Snap Id)) (start : Index Id)
    (sent : List (Blob Id)) (root : Id) : Res (List (Post Id)) :=
  let quiet := sent.isEmpty && (a.dryRun || start.isEmpty)
  let nothing : Res (List (Post Id)) :=
    if quiet then .ok [] else .error (.panic "assertion `left == right` failed")
  let snap : Snapshot Id := ⟨a.now, a.tz, a.author, a.tags, a.paths, root⟩
  if root = C.emptyId ∧ a.allowEmpty = false then nothing
  else if (snaps.getLast?.map (fun s => { s.1 with time := a.now, tz := a.tz })) = some snap then nothing
  else if a.dryRun then .ok []
  else .ok [.putSnap snap]

/-- The command up to starting its threads, and what it then does (`src/ui/backup.rs:113-288`).
`src` is the opened repository and `snaps` its snapshots in time order. -/
def backupPlan (C : Codec Id) (cut : Bytes → Nat) (w : World Id) (src : Source Id)
    (snaps : List (Snap Id)) (a : BackupArgs) : Res (Plan Id) :=
  let parent := parentSnapshot a.paths snaps
  match parentForest C src parent with
  | .error e => .error e
  | .ok F =>
    match Index.blobIds src.index with
    | .error e => .error e
    | .ok known =>
      match resumeFrom w with
      | .error e => .error e
      | .ok (start, here) =>
        let packed := BMap.keys known ++ listedIds start
        match backupTree C cut a.filter F a.pathOf (parent.map (·.tree)) a.fs ⟨packed, []⟩ with
        | .error e => .error e
        | .ok (root, s) =>
          .ok ⟨start, (if a.dryRun then [] else here.map Op.up) ++ s.sent.map Op.send,
            backupPost C a snaps start s.sent root⟩

end Backpak
