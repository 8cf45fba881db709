import Verif.Model.Pipeline

/-!
# The rebuild-index command (`src/ui/rebuild_index.rs`)

Its threads read the manifests of all packs in some order; one indexer gathers them; the main
thread uploads the index and then removes those it replaces. A manifest that cannot be read ends
the program where it is (`src/concurrently.rs:26-38`, `fatal`), as being killed does.
-/

namespace Backpak.Rebuild

open Pipeline

variable {Id : Type} [LinearOrder Id]

/-- Where the indexer and, after it, the upload are (`src/index.rs:78-152`, not resumable;
`src/upload.rs:16-33`). -/
inductive Phase (Id : Type)
  | gather (x : Index Id)
  | wrote (x : Index Id)
  | copied (x : Index Id)
  | stored (x : Index Id)
  | uploaded (x : Index Id)
  /-- A pack came twice; the program ends. -/
  | dead

/-- The state of a run. -/
structure State (Id : Type) where
  world : World Id
  /-- The packs still to be read. -/
  todo : List Id
  /-- What has been read and not yet received. The channel's bound, which only delays the readers,
  is left out. -/
  queue : List (Id × Manifest Id)
  phase : Phase Id

/-- The index to start from (`src/ui/rebuild_index.rs:32-42`). -/
def fresh (R : Repo Id) : Index Id := ⟨BMap.keys R.indexes, []⟩

/-- The start of a run (`src/ui/rebuild_index.rs:25-62`). -/
def init (w : World Id) : State Id := ⟨w, BMap.keys w.repo.packs, [], .gather (fresh w.repo)⟩

/-- One step. `live` is false for a dry run. -/
inductive Step (ids : Ids Id) (live : Bool) : State Id → State Id → Prop
  /-- Some thread reads some pack's manifest and sends it (`src/ui/rebuild_index.rs:62-75`). -/
  | read (s) (pre p post bs) : s.todo = pre ++ p :: post → s.world.repo.packs.get? p = some bs →
      Step ids live s { s with todo := pre ++ post, queue := s.queue ++ [(p, Pack.manifestOf bs)] }
  /-- The indexer receives one (`src/index.rs:96-110`). -/
  | recv (s) (p m q x) : s.queue = (p, m) :: q → s.phase = .gather x → p ∉ BMap.keys x.packs →
      Step ids live s { s with queue := q, phase := .gather { x with packs := BMap.insert p m x.packs } }
  | recvDup (s) (p m q x) : s.queue = (p, m) :: q → s.phase = .gather x → p ∈ BMap.keys x.packs →
      Step ids live s { s with queue := q, phase := .dead }
  /-- The channel is closed; the indexer writes the work-in-progress file
  (`src/index.rs:113-115,154-171`). With nothing to write the command fails
  (`src/ui/rebuild_index.rs:92`). -/
  | write (s) (x) : s.todo = [] → s.queue = [] → s.phase = .gather x → x.isEmpty = false →
      Step ids live s { s with
        world := { s.world with cwd := { s.world.cwd with wip := some x } }, phase := .wrote x }
  /-- It copies it to `<id>.index` (`src/index.rs:117-136`). -/
  | copy (s) (x) : s.phase = .wrote x →
      Step ids live s { s with
        world := { s.world with cwd := { s.world.cwd with
          indexes := BMap.insert (ids.indexId x) x s.world.cwd.indexes } }, phase := .copied x }
  /-- The upload: as for backups (`src/backend.rs:236-267`). -/
  | store (s) (x) : s.phase = .copied x → live = true →
      Step ids live s { s with
        world := { s.world with repo := putItem s.world.repo (.index (ids.indexId x) x) }, phase := .stored x }
  | drop (s) (x) : s.phase = .stored x →
      Step ids live s { s with
        world := { s.world with cwd := dropItem s.world.cwd (.index (ids.indexId x) x) }, phase := .uploaded x }
  | move (s) (x) : s.phase = .copied x → live = true →
      Step ids live s { s with
        world := ⟨putItem s.world.repo (.index (ids.indexId x) x),
          dropItem s.world.cwd (.index (ids.indexId x) x)⟩, phase := .uploaded x }
  | discard (s) (x) : s.phase = .copied x → live = false →
      Step ids live s { s with
        world := { s.world with cwd := dropItem s.world.cwd (.index (ids.indexId x) x) }, phase := .uploaded x }

/-- Reachable states. -/
def Reachable (ids : Ids Id) (live : Bool) (w : World Id) (s : State Id) : Prop :=
  Relation.ReflTransGen (Step ids live) (init w) s

/-- The removals that follow (`src/ui/rebuild_index.rs:94-99`). -/
def posts (live : Bool) (R : Repo Id) : List (Post Id) :=
  if live then (BMap.keys R.indexes).map .rmIndex else []

/-- What can be on disk at some instant. The work-in-progress file is never removed. -/
inductive Instant (ids : Ids Id) (live : Bool) (w : World Id) : World Id → Prop
  | during (s) : Reachable ids live w s → Instant ids live w s.world
  | after (s x done rest) : Reachable ids live w s → s.phase = .uploaded x →
      posts live w.repo = done ++ rest →
      Instant ids live w ⟨done.foldl (applyPost ids) s.world.repo, s.world.cwd⟩

/-- What is on disk when it has finished. -/
inductive Finished (ids : Ids Id) (live : Bool) (w : World Id) : World Id → Prop
  | mk (s x) : Reachable ids live w s → s.phase = .uploaded x →
      Finished ids live w ⟨(posts live w.repo).foldl (applyPost ids) s.world.repo, s.world.cwd⟩

end Backpak.Rebuild
