import Verif.Model.Diff
import Verif.Model.Walk
import Verif.Model.ChunkCache

/-!
# Restoring a snapshot (`src/ui/restore.rs`)

What a restore does depends on the two forests it compares, not on what its own calls to the
operating system return, except that it stops at the first error. So it is modelled as the list of
calls it makes, and what a list of calls does.
-/

namespace Backpak

/-! ## The filesystem -/

/-- What is at a path. -/
inductive Item
  | file (data : Bytes)
  | dir
  | link (target : Bytes)
  | other
deriving DecidableEq, Repr

/-- What is at a path, its permission bits and its modification time. Owners and access times are
not represented; hard links are not either. -/
structure Obj where
  item : Item
  mode : Nat
  mtime : Int
deriving DecidableEq, Repr

/-- A filesystem: what is at each path when no symlink is followed. -/
abbrev Fs := Path → Option Obj

namespace Fs

def isDir (o : Option Obj) : Bool :=
  match o with
  | some ⟨.dir, _, _⟩ => true
  | _ => false

def isLink (o : Option Obj) : Bool :=
  match o with
  | some ⟨.link _, _, _⟩ => true
  | _ => false

/-- How a path is found: where it says, through a symlink somewhere above it, or not at all. -/
inductive Way
  | here
  | through
  | missing
deriving DecidableEq, Repr

def way (fs : Fs) (p : Path) : Way :=
  if (List.range p.length).any (fun k => isLink (fs (p.take k))) then .through
  else if p ≠ [] ∧ isDir (fs p.dropLast) = true then .here
  else .missing

def put (fs : Fs) (p : Path) (o : Option Obj) : Fs := fun q => if q = p then o else fs q

/-- Remove a path and everything below it. -/
def clear (fs : Fs) (p : Path) : Fs := fun q => if p.isPrefixOf q then none else fs q

/-- A directory whose entries change gets a new modification time. -/
def touchParent (fs : Fs) (p : Path) (now : Int) : Fs :=
  fun q => if q = p.dropLast then (fs q).map (fun o => { o with mtime := now }) else fs q

end Fs

/-- What the system decides: the time of each call, and the permission bits of new entries. -/
structure FsEnv where
  clock : Nat → Int
  fileMode : Nat
  dirMode : Nat
  linkMode : Nat

/-- The filesystem, how many calls have been made, the state of the reader of chunks, and the calls
whose effect was elsewhere because they followed a symlink or opened a special file. -/
structure Disk (Id : Type) where
  fs : Fs
  tick : Nat
  reader : ReaderState Id
  elsewhere : List Path

/-- `rustix::fs::Timespec`: seconds since the epoch, and nanoseconds. -/
structure Timespec where
  sec : Int
  nsec : Int
deriving DecidableEq, Repr

/-- The time it stands for, in nanoseconds. -/
def Timespec.nanos (t : Timespec) : Int := t.sec * 10 ^ 9 + t.nsec

/-- What the system accepts (`utimensat(2)`: else `EINVAL`). -/
def Timespec.valid (t : Timespec) : Bool := decide (0 ≤ t.nsec) && decide (t.nsec < 10 ^ 9)

/-- `to_timespec` (`src/ui/restore.rs:282-288`). `Timestamp::as_second` rounds towards zero, and
`Timestamp::subsec_nanosecond` is what is left, of the same sign. -/
def toTimespec (t : Int) : Timespec := ⟨t.tdiv (10 ^ 9), t.tmod (10 ^ 9)⟩

/-- `rustix::fs::Timestamps`; `none` for the current time. -/
structure Stamps where
  access : Option Timespec
  modification : Option Timespec
deriving DecidableEq, Repr

/-- Both are accepted. -/
def Stamps.valid (v : Stamps) : Bool := v.access.all Timespec.valid && v.modification.all Timespec.valid

/-- The calls a restore makes. -/
inductive SysOp (Id : Type)
  /-- `File::create` and `fill_file` (`src/ui/restore.rs:439-445`) -/
  | write (p : Path) (chunks : List Id)
  | symlink (p : Path) (target : Bytes)
  | mkdir (p : Path)
  /-- `fs::remove_dir_all` -/
  | rmAll (p : Path)
  /-- `fs::remove_file` -/
  | rmFile (p : Path)
  /-- `utimensat`, not following symlinks -/
  | times (p : Path) (v : Stamps)
  | chmod (p : Path) (mode : Nat)
deriving DecidableEq, Repr

/-- The path of a call. -/
def SysOp.path {Id : Type} : SysOp Id → Path
  | write p _ => p
  | symlink p _ => p
  | mkdir p => p
  | rmAll p => p
  | rmFile p => p
  | times p _ => p
  | chmod p _ => p

/-- A call that is refused wherever its path leads. -/
def SysOp.refused {Id : Type} : SysOp Id → Bool
  | times _ v => !v.valid
  | _ => false

variable {Id : Type} [LinearOrder Id]

/-- What a call gives: the disk afterwards, and an error if it fails. -/
abbrev Outcome (Id : Type) := Disk Id × Option Fail

/-- Append the chunks one after another to the file at a path (`fill_file`,
`src/ui/restore.rs:439-445`). -/
def fillFile (H : Bytes → Id) (src : Source Id) (cenv : CacheEnv Id) (p : Path) :
    List Id → Disk Id → Outcome Id
  | [], d => (d, none)
  | c :: cs, d =>
    match readBlob H src cenv d.reader c with
    | .error e => (d, some e)
    | .ok (x, reader) =>
      match d.fs p with
      | some ⟨.file y, m, tm⟩ =>
        fillFile H src cenv p cs { d with fs := d.fs.put p (some ⟨.file (y ++ x), m, tm⟩), reader := reader }
      | _ => (d, some (.err "the file is gone"))

/-- What a call does where its path says. A file is written to at the time it is opened. -/
def callHere (H : Bytes → Id) (src : Source Id) (cenv : CacheEnv Id) (env : FsEnv) (op : SysOp Id)
    (d : Disk Id) : Outcome Id :=
  let now := env.clock d.tick
  let p := op.path
  let d1 := { d with tick := d.tick + 1 }
  /- put something new in a directory -/
  let enter (o : Option Obj) : Disk Id := { d1 with fs := (d.fs.put p o).touchParent p now }
  /- the call works on something else -/
  let away : Disk Id := { d1 with elsewhere := d.elsewhere ++ [p] }
  match op, d.fs p with
  | .write _ cs, none => fillFile H src cenv p cs (enter (some ⟨.file [], env.fileMode, now⟩))
  | .write _ cs, some ⟨.file _, m, _⟩ =>
    fillFile H src cenv p cs { d1 with fs := d.fs.put p (some ⟨.file [], m, now⟩) }
  | .write _ _, some ⟨.dir, _, _⟩ => (d1, some (.err "Is a directory"))
  | .write _ _, some ⟨_, _, _⟩ => (away, none)
  | .symlink _ tgt, none => (enter (some ⟨.link tgt, env.linkMode, now⟩), none)
  | .symlink _ _, some _ => (d1, some (.err "File exists"))
  | .mkdir _, none => (enter (some ⟨.dir, env.dirMode, now⟩), none)
  | .mkdir _, some _ => (d1, some (.err "File exists"))
  | .rmFile _, none => (d1, some (.err "No such file or directory"))
  | .rmFile _, some ⟨.dir, _, _⟩ => (d1, some (.err "Is a directory"))
  | .rmFile _, some _ => (enter none, none)
  | .rmAll _, none => (d1, some (.err "No such file or directory"))
  | .rmAll _, some ⟨.dir, _, _⟩ => ({ d1 with fs := (d.fs.clear p).touchParent p now }, none)
  | .rmAll _, some ⟨.link _, _, _⟩ => (enter none, none)
  | .rmAll _, some _ => (d1, some (.err "Not a directory"))
  | .times _ _, none => (d1, some (.err "No such file or directory"))
  | .times _ v, some o =>
    ({ d1 with fs := d.fs.put p (some { o with mtime := (v.modification.map Timespec.nanos).getD now }) }, none)
  | .chmod _ _, none => (d1, some (.err "No such file or directory"))
  | .chmod _ _, some ⟨.link _, _, _⟩ => (away, none)
  | .chmod _ mode, some o => ({ d1 with fs := d.fs.put p (some { o with mode := mode % 0o10000 }) }, none)

/-- One call. Of one that goes through a symlink, only that it did is recorded. -/
def call (H : Bytes → Id) (src : Source Id) (cenv : CacheEnv Id) (env : FsEnv) (op : SysOp Id)
    (d : Disk Id) : Outcome Id :=
  if op.refused then ({ d with tick := d.tick + 1 }, some (.err "Invalid argument")) else
  match d.fs.way op.path with
  | .through => ({ d with tick := d.tick + 1, elsewhere := d.elsewhere ++ [op.path] }, none)
  | .missing => ({ d with tick := d.tick + 1 }, some (.err "No such file or directory"))
  | .here => callHere H src cenv env op d

/-- Calls one after another, up to the first that fails. -/
def calls (H : Bytes → Id) (src : Source Id) (cenv : CacheEnv Id) (env : FsEnv) :
    List (SysOp Id) → Disk Id → Outcome Id
  | [], d => (d, none)
  | op :: ops, d =>
    match call H src cenv env op d with
    | (d', some e) => (d', some e)
    | (d', none) => calls H src cenv env ops d'

/-! ## Which calls are made -/

/-- `Args` (`src/ui/restore.rs:46-92`), the snapshot having been found. The output is canonical (see
`canonicalize_utf8`, `src/ui/restore.rs:163-165`); the code uses the path as given for its calls,
which makes a difference only if it is itself a symlink. -/
structure RestoreArgs where
  output : Option Path
  dryRun : Bool
  delete : Bool
  times : Bool
  permissions : Bool
deriving DecidableEq, Repr

/-- `translate_path` (`src/ui/restore.rs:298-316`). -/
def translate (places : BMap Name Path) : Path → Res Path
  | [] => .error (.panic "index out of bounds: the len is 0 but the index is 0")
  | n :: q =>
    match places.get? n with
    | none => .error (.panic "No key in path map")
    | some p => .ok (p ++ q)

/-- `set_metadata` (`src/ui/restore.rs:320-356`), on Unix. -/
def metaOps (args : RestoreArgs) (p : Path) (x : Node Id) : Res (List (SysOp Id)) :=
  let times : List (SysOp Id) :=
    if args.times = true ∧ ¬ (x.md.mtime = none ∧ x.md.atime = none) then
      [.times p ⟨x.md.atime.map toTimespec, x.md.mtime.map toTimespec⟩] else []
  if args.permissions then
    match x.kind with
    | .error e => .error e
    | .ok .link => .ok times
    | .ok _ =>
      match x.md with
      | .posix m => .ok (times ++ [.chmod p m.mode])
      | .windows _ => .error (.panic "not yet implemented: Windows -> Posix perms mapping")
  else .ok times

/-- `remove_node` (`src/ui/restore.rs:363-376`). -/
def removeOps (p : Path) (x : Node Id) : Res (List (SysOp Id)) :=
  match x.kind with
  | .error e => .error e
  | .ok .dir => .ok [.rmAll p]
  | .ok _ => .ok [.rmFile p]

/-- The loop of `add_node` over a directory's nodes (`src/ui/restore.rs:397-401`). -/
def addEach (down : Path → Node Id → Res (List (SysOp Id))) (p : Path) : Tree Id → Res (List (SysOp Id))
  | [] => .ok []
  | (n, x) :: rest =>
    match down (p ++ [n]) x with
    | .error e => .error e
    | .ok l =>
      match addEach down p rest with
      | .error e => .error e
      | .ok l' => .ok (l ++ l')

/-- `add_node` (`src/ui/restore.rs:378-408`). The number bounds the depth of recursion. -/
def addOps (args : RestoreArgs) (F : Forest Id) : Nat → Path → Node Id → Res (List (SysOp Id))
  | 0, _, _ => .error (.panic "stack overflow")
  | k + 1, p, x =>
    match x.contents with
    | .file cs =>
      match metaOps args p x with
      | .error e => .error e
      | .ok l => .ok (.write p cs :: l)
    | .link tgt => .ok [.symlink p tgt]
    | .dir sub =>
      match F.get? sub with
      | none => .error (.panic "Missing tree")
      | some t =>
        match addEach (addOps args F k) p t with
        | .error e => .error e
        | .ok l =>
          match metaOps args p x with
          | .error e => .error e
          | .ok l' => .ok (.mkdir p :: (l ++ l'))

/-- `change_node_contents` (`src/ui/restore.rs:410-436`). -/
def changeOps (args : RestoreArgs) (p : Path) (y : Node Id) : Res (List (SysOp Id)) :=
  match y.contents with
  | .file cs =>
    match metaOps args p y with
    | .error e => .error e
    | .ok l => .ok (.write p cs :: l)
  | .link tgt => .ok [.rmFile p, .symlink p tgt]
  | .dir _ => .error (.panic "internal error: entered unreachable code")

/-- What is done and printed. -/
abbrev Restored (Id : Type) := List (SysOp Id) × List (DiffLine Id)

/-- Print for an event, then do something unless it is a dry run. -/
def andPrint (args : RestoreArgs) (F1 F2 : Forest Id) (e : Event Id) (ops : Res (List (SysOp Id))) :
    Res (Restored Id) :=
  match printEvent (args.times || args.permissions) F1 F2 e with
  | .error e => .error e
  | .ok l =>
    if args.dryRun then .ok ([], l)
    else
      match ops with
      | .error e => .error e
      | .ok ops => .ok (ops, l)

/-- The callbacks of a restore (`src/ui/restore.rs:462-567`). -/
def restoreEvent (args : RestoreArgs) (places : BMap Name Path) (F1 F2 : Forest Id) :
    Event Id → Res (Restored Id)
  | .added q y =>
    match translate places q with
    | .error e => .error e
    | .ok p => andPrint args F1 F2 (.added p y) (addOps args F2 (F2.length + 1) p y)
  | .removed q x =>
    if args.delete = false then .ok ([], [])
    else
      match translate places q with
      | .error e => .error e
      | .ok p => andPrint args F1 F2 (.removed p x) (removeOps p x)
  | .contents q x y =>
    match translate places q with
    | .error e => .error e
    | .ok p => andPrint args F1 F2 (.contents p x y) (changeOps args p y)
  | .metadata q x y =>
    match translate places q with
    | .error e => .error e
    | .ok p => andPrint args F1 F2 (.metadata p x y) (metaOps args p y)
  | .same _ _ => .ok ([], [])
  | .retyped q x y =>
    match translate places q with
    | .error e => .error e
    | .ok p =>
      if x.contents.kind = .dir ∧ args.delete = false then
        if y.contents.kind = .dir then .error (.panic "internal error: entered unreachable code")
        else .ok ([], [])
      else
        andPrint args F1 F2 (.retyped p x y)
          (match removeOps p x with
            | .error e => .error e
            | .ok l =>
              match addOps args F2 (F2.length + 1) p y with
              | .error e => .error e
              | .ok l' => .ok (l ++ l'))

/-- The callbacks, after what has been done and printed. -/
def restorer (args : RestoreArgs) (places : BMap Name Path) (F1 F2 : Forest Id) (e : Event Id)
    (s : Restored Id) : Res (Restored Id) :=
  match restoreEvent args places F1 F2 e with
  | .error e => .error e
  | .ok (ops, l) => .ok (s.1 ++ ops, s.2 ++ l)

/-! ## What is there now -/

/-- What the program sees at a path: an entry, and what is in it if it is a directory. -/
abbrev Look := Path → Option ((Meta × Option (Leaf Bytes)) × Dir Bytes)

/-- `Utf8Path::file_name`: the last component unless it is the root or `..`. -/
def fileName (p : Path) : Option Name :=
  match p.getLast? with
  | none => none
  | some n => if n = [] ∨ n = [46, 46] then none else some n

/-- The entries at the given paths, in order (the top of `walk_fs`, `src/fs_tree.rs:104-124`). -/
def gather (look : Look) : List Path → Res (Dir Bytes)
  | [] => .ok .nil
  | p :: rest =>
    match fileName p with
    | none => .error (.panic "path ends in a relative component")
    | some n =>
      match look p with
      | none => .error (.err "Couldn't read metadata")
      | some (e, sub) =>
        match gather look rest with
        | .error e => .error e
        | .ok d =>
          match e with
          | (md, some l) => .ok (.leaf n md l d)
          | (md, none) => .ok (.dir n md sub d)

/-- The places of the snapshot's top-level nodes (`src/ui/restore.rs:155-159,221-226,265-271`):
`place` gives a path's. -/
def placesOf (place : Path → Name → Path) : List Path → BMap Name Path → Res (BMap Name Path)
  | [], m => .ok m
  | p :: rest, m =>
    match fileName p with
    | none => .error (.panic "called `Option::unwrap()` on a `None` value")
    | some n =>
      if (m.get? n).isSome then .error (.panic "assertion failed: path_map.insert(..).is_none()")
      else placesOf place rest (BMap.insert n (place p n) m)

/-- Where a restore goes, what is there now, and under which ID. -/
structure Target (Id : Type) where
  root : Id
  forest : Forest Id
  places : BMap Name Path

/-- Give the only top-level node another name (`src/ui/restore.rs:197-213`). -/
def renameTop (C : Codec Id) (F : Forest Id) (id : Id) (from_ dst : Name) : Res (Id × Forest Id) :=
  match F.get? id with
  | none => .error (.panic "called `Option::unwrap()` on a `None` value")
  | some t =>
    match BMap.get? t from_ with
    | none => .error (.panic "called `Option::unwrap()` on a `None` value")
    | some x =>
      let t' := BMap.insert dst x (BMap.erase from_ t)
      let id' := C.hash (C.encTree t')
      .ok (id', BMap.insert id' t' (BMap.erase id F))

/-- What a path is, following symlinks, is there (`Utf8Path::exists`). `dangling` says of which
paths to symlinks this is false. -/
def isThere (look : Look) (dangling : Path → Bool) (p : Path) : Bool :=
  match look p with
  | none => false
  | some ((_, some (.link _)), _) => !dangling p
  | some _ => true

/-- `load_fs_tree_and_mapping` (`src/ui/restore.rs:144-280`). -/
def loadTarget (C : Codec Id) (cut : Bytes → Nat) (look : Look) (dangling : Path → Bool)
    (output : Option Path) (s : Snapshot Id) (F2 : Forest Id) : Res (Target Id) :=
  let walk (paths : List Path) : Res (Id × Forest Id) :=
    match gather look paths with
    | .error e => .error e
    | .ok d => forestFromFs C cut F2 (fun n => [n]) (some s.tree) d
  match output with
  | some dst =>
    match s.paths with
    | [p] =>
      match fileName p with
      | none => .error (.panic "called `Option::unwrap()` on a `None` value")
      | some n =>
        match look dst with
        | none => .error (.err "Couldn't canonicalize")
        | some _ =>
          match walk [dst] with
          | .error e => .error e
          | .ok (id, F) =>
            match fileName dst with
            | none => .error (.panic "called `Option::unwrap()` on a `None` value")
            | some m =>
              match renameTop C F id m n with
              | .error e => .error e
              | .ok (id', F') => .ok ⟨id', F', [(n, dst)]⟩
    | paths =>
      match placesOf (fun _ n => dst ++ [n]) paths [] with
      | .error e => .error e
      | .ok places =>
        match walk (BSet.ofList ((paths.filterMap fileName).map (fun n => dst ++ [n]))
          |>.filter (isThere look dangling)) with
        | .error e => .error e
        | .ok (id, F) => .ok ⟨id, F, places⟩
  | none =>
    match walk s.paths with
    | .error e => .error e
    | .ok (id, F) =>
      match placesOf (fun p _ => p) s.paths [] with
      | .error e => .error e
      | .ok places => .ok ⟨id, F, places⟩

/-- `restore` (`src/ui/restore.rs:94-130`), from opening the repository and finding the snapshot on:
the calls it makes, and what it prints. -/
def restore (C : Codec Id) (src : Source Id) (cut : Bytes → Nat) (look : Look)
    (dangling : Path → Bool) (args : RestoreArgs) (s : Snapshot Id) : Res (Restored Id) :=
  match forestFromRoot C src s.tree (newTreeCache C) with
  | .error e => .error e
  | .ok (F2, _) =>
    match loadTarget C cut look dangling args.output s F2 with
    | .error e => .error e
    | .ok tgt =>
      compareTrees (restorer args tgt.places tgt.forest F2) tgt.forest F2 (tgt.forest.length + 1) []
        tgt.root s.tree ([], [])

end Backpak
