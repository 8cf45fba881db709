import Verif.Model.Backup
import Verif.Model.Copy
import Verif.Model.Prune

/-!
# The bytes a backup counts as reused

`WalkStatistics::reused_bytes`, shown after `R` on the progress line (`src/progress.rs:160-177`), logged
at the end and compared with 0 when nothing was backed up (`src/ui/backup.rs:217,270`). The walk of
`Model/Walk` with that counter added. The count is a natural number here; the code's has 64 bits.
-/

namespace Backpak

variable {Id : Type} [LinearOrder Id]

/-- What the walk keeps, and the bytes reused so far (`src/ui/backup.rs:300-305`). -/
structure WalkCounts (Id : Type) where
  sends : Sends Id
  reused : Nat
deriving DecidableEq, Repr

/-- Send a blob, or count its bytes if its ID is known (`src/ui/backup.rs:475-487,530-547`). -/
def offerCounted (s : WalkCounts Id) (b : Blob Id) : WalkCounts Id :=
  if b.id ∈ s.sends.packed then { s with reused := s.reused + b.data.length }
  else { s with sends := ⟨b.id :: s.sends.packed, s.sends.sent ++ [b]⟩ }

/-- The visitor of `backup_tree` (`src/ui/backup.rs:424-550`) with its counter. -/
def countingVisitor (C : Codec Id) (cut : Bytes → Nat) : Visitor Id Id (Tree Id) (WalkCounts Id) where
  init := []
  visit t n md prev e s :=
    match e with
    | .dir sub => (addNode t n ⟨.dir sub, md⟩).map (fun t' => (t', s))
    | .link target => (addNode t n ⟨.link target, md⟩).map (fun t' => (t', s))
    | .unchanged =>
      match md.size with
      | none => .error (.panic "files have sizes")
      | some rb =>
        match prev with
        | none => .error (.panic "called `Option::unwrap()` on a `None` value")
        | some p => (addNode t n ⟨p.contents, md⟩).map (fun t' => (t', { s with reused := s.reused + rb }))
    | .changed data =>
      let chunks := Chunk.chunkFile C.hash cut data
      (addNode t n ⟨.file (chunks.map Blob.id), md⟩).map (fun t' => (t', chunks.foldl offerCounted s))
  finalize t s :=
    if t = [] then .ok (C.emptyId, s)
    else
      let bytes := C.encTree t
      .ok (C.hash bytes, offerCounted s ⟨bytes, C.hash bytes, .tree⟩)

/-- `backup_tree` (`src/ui/backup.rs:402-560`) with its counter. -/
def backupCounted (C : Codec Id) (cut : Bytes → Nat) (filter : Path → Bool) (prevForest : Forest Id)
    (pathOf : Name → Path) (prevRoot : Option Id) (d : Dir Bytes) (s : WalkCounts Id) :
    Res (Id × WalkCounts Id) :=
  walkTop (countingVisitor C cut) filter prevForest pathOf prevRoot d s

/-- The tree a backup arrives at and the bytes it has counted as reused by then
(`src/ui/backup.rs:125-211`). -/
def backupReused (C : Codec Id) (cut : Bytes → Nat) (w : World Id) (src : Source Id)
    (snaps : List (Snap Id)) (a : BackupArgs) : Res (Id × Nat) :=
  let parent := parentSnapshot a.paths snaps
  match parentForest C src parent with
  | .error e => .error e
  | .ok F =>
    match Index.blobIds src.index with
    | .error e => .error e
    | .ok known =>
      match resumeFrom w with
      | .error e => .error e
      | .ok (start, _) =>
        (backupCounted C cut a.filter F a.pathOf (parent.map (·.tree)) a.fs
          ⟨⟨BMap.keys known ++ listedIds start, []⟩, 0⟩).map (fun r => (r.1, r.2.reused))

/-! ## Copying and pruning

`repack::WalkStatistics::reused_bytes` (`src/repack.rs:57-63`), shown on the same line
(`src/repack/ui.rs:48-50`). The walks of `Model/Repack` with that counter added. -/

/-- What a repacking walk keeps, and the bytes reused so far. -/
abbrev RepackCounts (Id : Type) := Repacking Id × Nat

/-- The chunks of one file (`src/repack.rs:184-192,254-268`). -/
def chunksCounted (C : Codec Id) (src : Source Id) (env : CacheEnv Id) :
    List Id → RepackCounts Id → Res (RepackCounts Id)
  | [], st => .ok st
  | c :: cs, ((s, r), n) =>
    if c ∈ s.packed then
      match blobSize src c with
      | .error e => .error e
      | .ok k => chunksCounted C src env cs ((s, r), n + k)
    else
      match readBlob C.hash src env r c with
      | .error e => .error e
      | .ok (x, r') => chunksCounted C src env cs ((offer s ⟨x, c, .chunk⟩, r'), n)

/-- The new node for a node (`src/repack.rs:175-226`). -/
def nodeCounted (C : Codec Id) (src : Source Id) (env : CacheEnv Id)
    (down : Path → Id → RepackCounts Id → Res (Id × RepackCounts Id)) (path : Path) (x : Node Id)
    (st : RepackCounts Id) : Res (Node Id × RepackCounts Id) :=
  match x.contents with
  | .file cs => (chunksCounted C src env cs st).map (fun st' => (x, st'))
  | .link _ => .ok (x, st)
  | .dir sub => (down path sub st).map (fun r => (⟨.dir r.1, x.md⟩, r.2))

/-- The loop over the nodes of a tree (`src/repack.rs:165-227`). -/
def nodesCounted (C : Codec Id) (src : Source Id) (env : CacheEnv Id) (filter : Path → Bool)
    (down : Path → Id → RepackCounts Id → Res (Id × RepackCounts Id)) (path : Path) :
    Tree Id → Tree Id → RepackCounts Id → Res (Tree Id × RepackCounts Id)
  | [], acc, st => .ok (acc, st)
  | (n, x) :: rest, acc, st =>
    if filter (path ++ [n]) = false then nodesCounted C src env filter down path rest acc st
    else
      match nodeCounted C src env down (path ++ [n]) x st with
      | .error e => .error e
      | .ok (y, st') =>
        if (BMap.get? acc n).isSome then
          .error (.panic "assertion failed: new_tree.insert(path.clone(), new_node).is_none()")
        else nodesCounted C src env filter down path rest (BMap.insert n y acc) st'

/-- `walk_tree` (`src/repack.rs:137-253`). Every new tree is offered, the empty one too. -/
def treeCounted (C : Codec Id) (src : Source Id) (env : CacheEnv Id) (filter : Path → Bool)
    (F : Forest Id) : Nat → Path → Id → RepackCounts Id → Res (Id × RepackCounts Id)
  | 0, _, _, _ => .error (.panic "stack overflow")
  | k + 1, path, id, st =>
    match F.get? id with
    | none => .error (.panic "Missing tree")
    | some t =>
      match nodesCounted C src env filter (treeCounted C src env filter F k) path t [] st with
      | .error e => .error e
      | .ok (t', ((s, r), n)) =>
        let bytes := C.encTree t'
        if C.hash bytes ∈ s.packed then .ok (C.hash bytes, ((s, r), n + bytes.length))
        else .ok (C.hash bytes, ((offer s ⟨bytes, C.hash bytes, .tree⟩, r), n))

/-- `walk_snapshots` and `walk_snapshot` (`src/repack.rs:70-135`). -/
def snapshotsCounted (C : Codec Id) (src : Source Id) (env : CacheEnv Id) (filter : Path → Bool) :
    List (Snap Id × Forest Id) → RepackCounts Id → Res (List (Snapshot Id) × RepackCounts Id)
  | [], st => .ok ([], st)
  | (s, F) :: rest, st =>
    match treeCounted C src env filter F (F.length + 1) [] s.1.tree st with
    | .error e => .error e
    | .ok (root, st') =>
      match snapshotsCounted C src env filter rest st' with
      | .error e => .error e
      | .ok (l, st'') => .ok ({ s.1 with tree := root } :: l, st'')

/-- The snapshots a copy makes and the bytes it has counted as reused by then (`src/ui/copy.rs:75-163`). -/
def copyReused (C : Codec Id) (env : CacheEnv Id) (w : World Id) (from_ dst : Source Id)
    (snaps : List (Snap Id)) (filter : Path → Bool) : Res (List (Snapshot Id) × Nat) :=
  match loadForests C from_ (newTreeCache C) snaps with
  | .error e => .error e
  | .ok sfs =>
    match Index.blobIds dst.index with
    | .error e => .error e
    | .ok known =>
      match resumeFrom w with
      | .error e => .error e
      | .ok (start, _) =>
        (snapshotsCounted C from_ env filter sfs ((⟨BMap.keys known ++ listedIds start, []⟩, ReaderState.new), 0)).map
          (fun r => (r.1, r.2.2))

/-- The same of a prune, if it has anything to do (`src/ui/prune.rs:40-200`). -/
def pruneReused (C : Codec Id) (env : CacheEnv Id) (w : World Id) (src : Source Id)
    (snaps : List (Snap Id)) : Res (Option (List (Snapshot Id) × Nat)) :=
  match loadForests C src (newTreeCache C) snaps with
  | .error e => .error e
  | .ok sfs =>
    let reach := reachableBlobs sfs
    let keep := src.index.packs.filter (fun e => reusable reach e.2)
    let drop := src.index.packs.filter (fun e => !reusable reach e.2)
    if drop.isEmpty then .ok none
    else
      let fresh : Index Id := ⟨BMap.keys w.repo.indexes, keep⟩
      match Index.blobIds fresh with
      | .error e => .error e
      | .ok known =>
        match pruneStart w fresh with
        | .error e => .error e
        | .ok (start, _) =>
          (snapshotsCounted C src env (fun _ => true) sfs
            ((⟨BMap.keys known ++ listedIds start, []⟩, ReaderState.new), 0)).map (fun r => some (r.1, r.2.2))

end Backpak
