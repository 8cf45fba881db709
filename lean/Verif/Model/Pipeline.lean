import Verif.Model.Repo
import Mathlib.Logic.Function.Basic
import Mathlib.Logic.Relation

/-!
# The backup pipeline (`src/backup.rs`, `src/index.rs:78-152`, `src/upload.rs`)

The main thread, two packers, the indexer and the uploader as a transition system over the
repository and working directory. The process may die in any state, so what holds in every
reachable state holds whenever it dies.

All channels have capacity zero (`src/backup.rs:130-132,177`): a send and its receive are
one step. Where a packer ends its packs depends on compressed sizes (`Verif.Model.Packer`);
here it may end one after any blob.
-/

namespace Backpak.Pipeline

/-- A file sent to the uploader: its name and its contents (`src/upload.rs:16-23`). -/
inductive Item (Id : Type)
  | pack (id : Id) (bs : Pack Id)
  | index (id : Id) (x : Index Id)

/-- A packer thread (`src/pack.rs:74-199`). -/
inductive PackerState (Id : Type)
  /-- About to receive; these blobs are in the current pack. -/
  | recv (cur : List (Blob Id))
  /-- The pack is persisted; about to send it to the uploader (`src/pack.rs:175-177,191-193`). -/
  | sendUp (id : Id) (bs : Pack Id)
  /-- About to send its metadata to the indexer (`src/pack.rs:178-180,194-196`). -/
  | sendIdx (id : Id) (bs : Pack Id)
  | exited

/-- The indexer thread (`src/index.rs:78-152`). -/
inductive IndexerState (Id : Type)
  /-- About to write the work-in-progress file (`src/index.rs:91-93,105-110`). -/
  | persist (x : Index Id)
  /-- About to receive (`src/index.rs:96`). -/
  | recv (x : Index Id)
  /-- Not resumable: about to write the work-in-progress file for the only time
  (`src/index.rs:113-115`). -/
  | persistLast (x : Index Id)
  /-- About to copy it to `<id>.index` (`src/index.rs:118-136`). -/
  | copy (x : Index Id)
  /-- About to send that to the uploader (`src/index.rs:144-146`). -/
  | sendUp (x : Index Id)
  /-- Returned; `none` when there was nothing to index (`src/index.rs:148-151`). -/
  | exited (x : Option (Index Id))
  /-- Received a pack it already had; the program is exiting (`src/index.rs:97-101`). -/
  | dead

/-- The uploader thread (`src/upload.rs:16-32`). -/
inductive UploaderState (Id : Type)
  | idle
  /-- Received a file. -/
  | busy (i : Item Id)
  /-- The backend has the file, which is still in the working directory too
  (`src/backend.rs:246-264`). -/
  | stored (i : Item Id)
  | exited

/-- What the main thread does before joining: upload packs found in the working directory
(`src/backup.rs:334-342`), send blobs (`src/ui/backup.rs:402-560`, `src/repack.rs:70-268`). -/
inductive Op (Id : Type)
  | up (p : Id)
  | send (b : Blob Id)
deriving DecidableEq

/-- What the main thread does after joining: upload a snapshot (`src/ui/backup.rs:274-276`,
`src/ui/copy.rs:139-161`), remove old indexes and packs (`src/ui/prune.rs:225-234`). -/
inductive Post (Id : Type)
  | putSnap (s : Snapshot Id)
  | rmIndex (i : Id)
  | rmPack (p : Id)
deriving DecidableEq

/-- What a run is given. -/
structure Cfg (Id : Type) where
  ids : Ids Id
  /-- `Mode::LiveFire` rather than `Mode::DryRun`. -/
  live : Bool
  /-- Physical cores (`src/concurrently.rs:9-11`). -/
  cores : Nat
  /-- The index to start from (`src/backup.rs:119`). -/
  start : Index Id
  /-- The packs that may be formed. `fun _ => True` gives the whole system; theorems that
  assume no two packs of a run collide take the run's packs here. -/
  allowed : Pack Id → Prop

/-- The state of a run. -/
structure State (Id : Type) where
  world : World Id
  main : List (Op Id)
  /-- The main thread has dropped its channel ends (`src/backup.rs:95-97`). -/
  closed : Bool
  /-- It has joined the threads and removed the work-in-progress file (`src/backup.rs:98-110`). -/
  joined : Bool
  /-- How many of the four threads, in order, have been started (`src/backup.rs:193-243`). -/
  spawned : Nat
  pk : Kind → PackerState Id
  ix : IndexerState Id
  up : UploaderState Id

variable {Id : Type} [LinearOrder Id]

/-- The position of a packer in the list of jobs (`src/backup.rs:193-219`). -/
def packerNo : Kind → Nat
  | .chunk => 0
  | .tree => 1

/-- The state at the start of a run. -/
def init (c : Cfg Id) (w : World Id) (main : List (Op Id)) : State Id where
  world := w
  main := main
  closed := false
  joined := false
  spawned := 0
  pk := fun _ => .recv []
  ix := if c.live ∧ c.start.isEmpty = false then .persist c.start else .recv c.start
  up := .idle

def PackerState.running : PackerState Id → Nat
  | .exited => 0
  | _ => 1

def IndexerState.running : IndexerState Id → Nat
  | .exited _ => 0
  | _ => 1

def UploaderState.running : UploaderState Id → Nat
  | .exited => 0
  | _ => 1

/-- Threads started and not yet finished: each holds a permit (`src/concurrently.rs:48-58`). -/
def State.running (s : State Id) : Nat :=
  (if 0 < s.spawned then (s.pk .chunk).running else 0) +
  (if 1 < s.spawned then (s.pk .tree).running else 0) +
  (if 2 < s.spawned then s.ix.running else 0) +
  (if 3 < s.spawned then s.up.running else 0)

/-- Putting an uploaded file in the repository (`src/backend.rs:236-267`). -/
def putItem (r : Repo Id) : Item Id → Repo Id
  | .pack id bs => { r with packs := BMap.insert id bs r.packs }
  | .index id x => { r with indexes := BMap.insert id x r.indexes }

/-- Removing a file from the working directory. -/
def dropItem (c : Cwd Id) : Item Id → Cwd Id
  | .pack id _ => { c with packs := BMap.erase id c.packs }
  | .index id _ => { c with indexes := BMap.erase id c.indexes }

/-- One operation after the join. -/
def applyPost (ids : Ids Id) (r : Repo Id) : Post Id → Repo Id
  | .putSnap s => { r with snapshots := BMap.insert (ids.snapId s) s r.snapshots }
  | .rmIndex i => { r with indexes := BMap.erase i r.indexes }
  | .rmPack p => { r with packs := BMap.erase p r.packs }

/-- The index with one more pack (`src/index.rs:98`). -/
def addPack (x : Index Id) (id : Id) (bs : Pack Id) : Index Id :=
  { x with packs := BMap.insert id (Pack.manifestOf bs) x.packs }

/-- One step of one thread, or of two threads meeting at a channel. -/
inductive Step (c : Cfg Id) : State Id → State Id → Prop
  /-- The next job is started once a permit is free (`src/concurrently.rs:46-59`). -/
  | spawn (s) : s.spawned < 4 → s.running < c.cores → Step c s { s with spawned := s.spawned + 1 }
  /-- The main thread uploads a pack found in the working directory. -/
  | mainUp (s) (p bs rest) : s.main = .up p :: rest → 3 < s.spawned → s.up = .idle →
      s.world.cwd.packs.get? p = some bs →
      Step c s { s with main := rest, up := .busy (.pack p bs) }
  /-- The main thread sends a blob to the packer of its kind. -/
  | mainSend (s) (b cur rest) : s.main = .send b :: rest → packerNo b.kind < s.spawned →
      s.pk b.kind = .recv cur →
      Step c s { s with main := rest, pk := Function.update s.pk b.kind (.recv (cur ++ [b])) }
  /-- The main thread has nothing more to send and drops its senders (`src/backup.rs:95-97`). -/
  | close (s) : s.main = [] → s.closed = false → Step c s { s with closed := true }
  /-- A packer ends its pack and persists it in the working directory (`src/pack.rs:263-299`). -/
  | endPack (s) (k cur) : packerNo k < s.spawned → s.pk k = .recv cur → cur ≠ [] → c.allowed cur →
      Step c s { s with
        world := { s.world with cwd := { s.world.cwd with
          packs := BMap.insert (c.ids.packId (Pack.manifestOf cur)) cur s.world.cwd.packs } },
        pk := Function.update s.pk k (.sendUp (c.ids.packId (Pack.manifestOf cur)) cur) }
  /-- A packer finds its channel closed and its current pack without bytes
  (`src/pack.rs:90,188,198`). -/
  | packerExit (s) (k cur) : packerNo k < s.spawned → s.pk k = .recv cur → s.closed = true →
      (Pack.contentOf cur).length = 0 →
      Step c s { s with pk := Function.update s.pk k .exited }
  /-- A packer sends its pack to the uploader. -/
  | packerUp (s) (k id bs) : s.pk k = .sendUp id bs → 3 < s.spawned → s.up = .idle →
      Step c s { s with up := .busy (.pack id bs), pk := Function.update s.pk k (.sendIdx id bs) }
  /-- A packer sends its pack's metadata to the indexer (`src/index.rs:96-110`). -/
  | packerIdx (s) (k id bs x) : s.pk k = .sendIdx id bs → 2 < s.spawned → s.ix = .recv x →
      id ∉ BMap.keys x.packs →
      Step c s { s with
        ix := if c.live then .persist (addPack x id bs) else .recv (addPack x id bs),
        pk := Function.update s.pk k (.recv []) }
  /-- The indexer receives a pack it already has (`src/index.rs:97-101`). -/
  | packerDup (s) (k id bs x) : s.pk k = .sendIdx id bs → 2 < s.spawned → s.ix = .recv x →
      id ∈ BMap.keys x.packs →
      Step c s { s with ix := .dead, pk := Function.update s.pk k (.recv []) }
  /-- The indexer writes the work-in-progress file (`src/index.rs:154-171`). -/
  | ixPersist (s) (x) : s.ix = .persist x → 2 < s.spawned →
      Step c s { s with
        world := { s.world with cwd := { s.world.cwd with wip := some x } }, ix := .recv x }
  /-- The indexer finds its channel closed and has nothing (`src/index.rs:148-151`). -/
  | ixEmpty (s) (x) : s.ix = .recv x → 2 < s.spawned → s.pk .chunk = .exited → s.pk .tree = .exited →
      x.isEmpty = true → Step c s { s with ix := .exited none }
  /-- The indexer finds its channel closed and has an index (`src/index.rs:117-118`). -/
  | ixClosed (s) (x) : s.ix = .recv x → 2 < s.spawned → s.pk .chunk = .exited → s.pk .tree = .exited →
      x.isEmpty = false → Step c s { s with ix := if c.live then .copy x else .persistLast x }
  /-- Not resumable: the indexer writes the work-in-progress file (`src/index.rs:113-115`). -/
  | ixPersistLast (s) (x) : s.ix = .persistLast x →
      Step c s { s with
        world := { s.world with cwd := { s.world.cwd with wip := some x } }, ix := .copy x }
  /-- The indexer copies it to `<id>.index` (`src/index.rs:118-136`). -/
  | ixCopy (s) (x) : s.ix = .copy x →
      Step c s { s with
        world := { s.world with cwd := { s.world.cwd with
          indexes := BMap.insert (c.ids.indexId x) x s.world.cwd.indexes } }, ix := .sendUp x }
  /-- The indexer sends it to the uploader and returns (`src/index.rs:144-147`). -/
  | ixUp (s) (x) : s.ix = .sendUp x → 3 < s.spawned → s.up = .idle →
      Step c s { s with up := .busy (.index (c.ids.indexId x) x), ix := .exited (some x) }
  /-- The uploader stores a file in the backend (`src/backend.rs:246-252,258-262`). -/
  | upStore (s) (i) : s.up = .busy i → c.live = true →
      Step c s { s with world := { s.world with repo := putItem s.world.repo i }, up := .stored i }
  /-- It removes (or moves to the cache) the file in the working directory
  (`src/backend.rs:253-256,263`). -/
  | upDrop (s) (i) : s.up = .stored i →
      Step c s { s with world := { s.world with cwd := dropItem s.world.cwd i }, up := .idle }
  /-- The uploader renames a file into the backend (`src/backend.rs:240-245`,
  `src/file_util.rs:70-111`). -/
  | upMove (s) (i) : s.up = .busy i → c.live = true →
      Step c s { s with world := ⟨putItem s.world.repo i, dropItem s.world.cwd i⟩, up := .idle }
  /-- On a dry run the uploader deletes the file (`src/upload.rs:24-28`). -/
  | upDiscard (s) (i) : s.up = .busy i → c.live = false →
      Step c s { s with world := { s.world with cwd := dropItem s.world.cwd i }, up := .idle }
  /-- The uploader finds its channel closed (`src/upload.rs:21,31`). -/
  | upExit (s) : s.up = .idle → 3 < s.spawned → s.closed = true → s.pk .chunk = .exited →
      s.pk .tree = .exited → (∃ x, s.ix = .exited x) → Step c s { s with up := .exited }
  /-- The main thread has joined the others and removes the work-in-progress file
  (`src/backup.rs:98-110`). -/
  | join (s) : s.closed = true → s.joined = false → s.spawned = 4 → s.pk .chunk = .exited →
      s.pk .tree = .exited → (∃ x, s.ix = .exited x) → s.up = .exited →
      Step c s { s with
        world := { s.world with cwd := { s.world.cwd with wip := none } }, joined := true }

/-- Reachable states of a run. -/
def Reachable (c : Cfg Id) (w : World Id) (main : List (Op Id)) (s : State Id) : Prop :=
  Relation.ReflTransGen (Step c) (init c w main) s

/-- What can be on disk at some instant of a command: while its pipeline runs, or after the
first few of the operations that follow the join. -/
inductive Instant (c : Cfg Id) (w : World Id) (main : List (Op Id)) (post : List (Post Id)) :
    World Id → Prop
  | during (s) : Reachable c w main s → Instant c w main post s.world
  | after (s done rest) : Reachable c w main s → s.joined = true → post = done ++ rest →
      Instant c w main post ⟨done.foldl (applyPost c.ids) s.world.repo, s.world.cwd⟩

/-- What is on disk when a command has finished. -/
inductive Finished (c : Cfg Id) (w : World Id) (main : List (Op Id)) (post : List (Post Id)) :
    World Id → Prop
  | mk (s) : Reachable c w main s → s.joined = true →
      Finished c w main post ⟨post.foldl (applyPost c.ids) s.world.repo, s.world.cwd⟩

end Backpak.Pipeline
