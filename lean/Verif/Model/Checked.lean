import Verif.Model.Backup

/-!
# What a backup checks before it starts (`src/ui/backup.rs:72-113,335-400`)

`Model/Walk` walks a filesystem in which everything can be read. Here calls to the system may fail.
-/

namespace Backpak

open Pipeline

/-- A path's last component, if it has one: `/` has not (`Utf8Path::file_name`). -/
def pathName (p : Path) : Option Name :=
  match p.getLast? with
  | some n => if n = [] then none else some n
  | none => none

/-- The loop of `reject_matching_directories` (`src/ui/backup.rs:336-348`). -/
def rejectLoop : List Path → List Name → Res Unit
  | [], _ => .ok ()
  | p :: l, seen =>
    match pathName p with
    | none => .error (.panic "empty path")
    | some n => if n ∈ seen then .error (.err "matching names") else rejectLoop l (n :: seen)

/-- `reject_matching_directories` (`src/ui/backup.rs:332-348`). -/
def rejectMatching (paths : BSet Path) : Res Unit := rejectLoop paths []

/-- Calls to the system that a walk makes. -/
inductive Call
  /-- `get_metadata` (`src/fs_tree.rs:121`) -/
  | stat
  /-- `read_dir_utf8` and going through it; it fails also if a name is not UTF-8 (`src/fs_tree.rs:127-130`) -/
  | list
  /-- `read_link_utf8` (`src/fs_tree.rs:160`) -/
  | readlink
  /-- `File::open` by the visitor of `check_paths` (`src/ui/backup.rs:378`), and `chunk_file` by that of `backup_tree`
  (`src/ui/backup.rs:472`), for files that count as changed -/
  | open
deriving DecidableEq, Repr

/-- Which calls fail on which paths. -/
abbrev Trouble := Call → Path → Bool

variable {Id : Type} [LinearOrder Id]

/-- `walkFs`, on a filesystem with trouble (`src/fs_tree.rs:104-176`). -/
def walkFsE {T I S : Type} (bad : Trouble) (v : Visitor Id T I S) (filter : Path → Bool) (prevForest : Forest Id) :
    (pathOf : Name → Path) → (prevTree : Option (Tree Id)) → Dir Bytes → I → S → Res (I × S)
  | _, _, .nil, i, s => .ok (i, s)
  | pathOf, prevTree, .leaf n md l rest, i, s =>
    if filter (pathOf n) = false then walkFsE bad v filter prevForest pathOf prevTree rest i s
    else
      let prev := prevTree.bind (fun t => BMap.get? t n)
      if bad .stat (pathOf n) then .error (.err "Couldn't stat")
      else
        match l with
        | .other => walkFsE bad v filter prevForest pathOf prevTree rest i s
        | .link target =>
          if bad .readlink (pathOf n) then .error (.err "Couldn't get symlink target")
          else
            match v.visit i n md prev (.link target) s with
            | .error e => .error e
            | .ok (i', s') => walkFsE bad v filter prevForest pathOf prevTree rest i' s'
        | .file data =>
          match fileChanged md prev with
          | .error e => .error e
          | .ok ch =>
            if ch && bad .open (pathOf n) then .error (.err "Can't open")
            else
              match v.visit i n md prev (if ch then .changed data else .unchanged) s with
              | .error e => .error e
              | .ok (i', s') => walkFsE bad v filter prevForest pathOf prevTree rest i' s'
  | pathOf, prevTree, .dir n md sub rest, i, s =>
    if filter (pathOf n) = false then walkFsE bad v filter prevForest pathOf prevTree rest i s
    else
      let prev := prevTree.bind (fun t => BMap.get? t n)
      if bad .stat (pathOf n) then .error (.err "Couldn't stat")
      else if bad .list (pathOf n) then .error (.err "Failed iterating subdirectory")
      else
        let prevSub := (prevSubtree prev).bind (fun id => prevForest.get? id)
        match walkFsE bad v filter prevForest (fun m => pathOf n ++ [m]) prevSub sub v.init s with
        | .error e => .error e
        | .ok (j, s1) =>
          match v.finalize j s1 with
          | .error e => .error e
          | .ok (t, s2) =>
            match v.visit i n md prev (.dir t) s2 with
            | .error e => .error e
            | .ok (i', s') => walkFsE bad v filter prevForest pathOf prevTree rest i' s'

/-- `walkTop`, on a filesystem with trouble. -/
def walkTopE {T I S : Type} (bad : Trouble) (v : Visitor Id T I S) (filter : Path → Bool) (prevForest : Forest Id)
    (pathOf : Name → Path) (prevRoot : Option Id) (d : Dir Bytes) (s : S) : Res (T × S) :=
  match walkFsE bad v filter prevForest pathOf (prevRoot.bind (fun id => prevForest.get? id)) d v.init s with
  | .error e => .error e
  | .ok (i, s') => v.finalize i s'

/-- The visitor of `check_paths` (`src/ui/backup.rs:371-391`); its state is `bytes_checked`. -/
def checkVisitor : Visitor Id Unit Unit Nat where
  init := ()
  visit := fun _ _ md _ e s =>
    match e with
    | .unchanged | .changed _ =>
      match md.size with
      | some k => .ok ((), s + k)
      | none => .error (.panic "called `Option::unwrap()` on a `None` value")
    | _ => .ok ((), s)
  finalize := fun _ s => .ok ((), s)

/-- `check_paths` (`src/ui/backup.rs:362-400`): it has no parent, so every file counts as changed. -/
def checkPaths (Id : Type) [LinearOrder Id] (bad : Trouble) (filter : Path → Bool) (pathOf : Name → Path)
    (d : Dir Bytes) : Res Nat :=
  (walkTopE bad (checkVisitor (Id := Id)) filter [] pathOf none d 0).map Prod.snd

/-- `backup_tree` (`src/ui/backup.rs:402-560`). -/
def backupTreeE (bad : Trouble) (C : Codec Id) (cut : Bytes → Nat) (filter : Path → Bool) (prevForest : Forest Id)
    (pathOf : Name → Path) (prevRoot : Option Id) (d : Dir Bytes) (s : Sends Id) : Res (Id × Sends Id) :=
  walkTopE bad (backupVisitor C cut) filter prevForest pathOf prevRoot d s

/-- The part of a backup that does not touch the repository (`src/ui/backup.rs:72-113`), on paths that could be
made canonical. -/
def backupChecks (Id : Type) [LinearOrder Id] (bad : Trouble) (a : BackupArgs) : Res Nat :=
  match rejectMatching a.paths with
  | .error e => .error e
  | .ok () => checkPaths Id bad a.filter a.pathOf a.fs

/-- `backupPlan`, on a filesystem with trouble. -/
def backupPlanE (bad : Trouble) (C : Codec Id) (cut : Bytes → Nat) (w : World Id) (src : Source Id)
    (snaps : List (Snap Id)) (a : BackupArgs) : Res (Plan Id) :=
  let parent := parentSnapshot a.paths snaps
  match parentForest C src parent with
  | .error e => .error e
  | .ok F =>
    match Index.blobIds src.index with
    | .error e => .error e
    | .ok known =>
      match resumeFrom w with
      | .error e => .error e
      | .ok (start, here) =>
        let packed := BMap.keys known ++ listedIds start
        match backupTreeE bad C cut a.filter F a.pathOf (parent.map (·.tree)) a.fs ⟨packed, []⟩ with
        | .error e => .error e
        | .ok (root, s) =>
          .ok ⟨start, (if a.dryRun then [] else here.map Op.up) ++ s.sent.map Op.send,
            backupPost C a snaps start s.sent root⟩

/-- The whole command (`src/ui/backup.rs:72-288`): the checks come before the repository is opened. -/
def backupWhole (bad : Trouble) (C : Codec Id) (cut : Bytes → Nat) (w : World Id) (src : Source Id)
    (snaps : List (Snap Id)) (a : BackupArgs) : Res (Plan Id) :=
  match backupChecks Id bad a with
  | .error e => .error e
  | .ok _ => backupPlanE bad C cut w src snaps a

end Backpak
