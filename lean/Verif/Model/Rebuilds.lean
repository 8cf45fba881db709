import Verif.Model.Rebuilding

/-!
# Several rebuild-indexes among other processes

Any number of `backpak rebuild-index` (`src/ui/rebuild_index.rs`), each in a working directory of its own, and any
number of other processes, over one repository.
-/

namespace Backpak.Pipeline

/-- Processes over one repository, and rebuild-indexes. -/
structure Many (ι κ Id : Type) where
  shared : Shared ι Id
  rbs : κ → Rebuilder Id

variable {ι κ Id : Type} [DecidableEq ι] [DecidableEq κ] [LinearOrder Id]

/-- One step: as `Mixed.Step`, of one of them. -/
inductive Many.Step (ids : Ids Id) (may : Job Id → Prop) : Many ι κ Id → Many ι κ Id → Prop
  /-- Another process takes a step. -/
  | other (m m' : Shared ι Id) (r : κ → Rebuilder Id) : Shared.Step may m m' → Many.Step ids may ⟨m, r⟩ ⟨m', r⟩
  /-- A rebuild lists the indexes (`src/ui/rebuild_index.rs:32-37`). -/
  | indexes (m : Shared ι Id) (r : κ → Rebuilder Id) (k : κ) (cwd : Cwd Id) : r k = .no →
      Many.Step ids may ⟨m, r⟩ ⟨m, Function.update r k (.listed (BMap.keys m.repo.indexes) cwd)⟩
  /-- It lists the packs (`src/ui/rebuild_index.rs:61-62`). -/
  | packs (m : Shared ι Id) (r : κ → Rebuilder Id) (k : κ) (I : List Id) (cwd : Cwd Id) : r k = .listed I cwd →
      Many.Step ids may ⟨m, r⟩ ⟨m, Function.update r k
        (.running I ⟨⟨m.repo, cwd⟩, BMap.keys m.repo.packs, [], .gather ⟨I, []⟩⟩ (I.map .rmIndex))⟩
  /-- One of its threads takes a step. -/
  | run (m : Shared ι Id) (r : κ → Rebuilder Id) (k : κ) (I : List Id) (s t : Rebuild.State Id) (left : List (Post Id)) :
      r k = .running I s left → Rebuild.Step ids true (onRepo s m.repo) t →
      Many.Step ids may ⟨m, r⟩ ⟨⟨t.world.repo, m.proc⟩, Function.update r k (.running I t left)⟩
  /-- The upload has returned and it removes an index. One that is not there any more cannot be removed: the command
  ends there with an error (`src/ui/rebuild_index.rs:96-98`, `src/backend/fs.rs:93-97`), and takes no further step. -/
  | post (m : Shared ι Id) (r : κ → Rebuilder Id) (k : κ) (I : List Id) (s : Rebuild.State Id) (x : Index Id) (i : Id)
      (rest : List (Post Id)) :
      r k = .running I s (.rmIndex i :: rest) → s.phase = .uploaded x → i ∈ BMap.keys m.repo.indexes →
      Many.Step ids may ⟨m, r⟩
        ⟨⟨applyPost ids m.repo (.rmIndex i), m.proc⟩, Function.update r k (.running I s rest)⟩

/-- What can come of a repository that no process has opened yet. -/
def Many.Reachable (ids : Ids Id) (may : Job Id → Prop) (R : Repo Id) (m : Many ι κ Id) : Prop :=
  Relation.ReflTransGen (Many.Step ids may) ⟨⟨R, fun _ => none⟩, fun _ => .no⟩ m

/-- The rebuild has ended with an error: an index it is to remove is gone. -/
def Rebuilder.failed (R : Repo Id) : Rebuilder Id → Prop
  | .running _ s (.rmIndex i :: _) => (∃ x, s.phase = .uploaded x) ∧ i ∉ BMap.keys R.indexes
  | _ => False

end Backpak.Pipeline
