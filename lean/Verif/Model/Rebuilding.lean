import Verif.Model.Shared
import Verif.Model.Rebuild

/-!
# A rebuild-index among other processes

`src/ui/rebuild_index.rs` lists the indexes first and the packs later (lines 32-37 and 61-62), reads the packs
one by one, stores its index, and then removes those it listed. Between any two of these other processes take
steps.
-/

namespace Backpak.Pipeline

/-- Where a rebuild-index is. -/
inductive Rebuilder (Id : Type)
  | no
  /-- It has listed the indexes (`src/ui/rebuild_index.rs:32-42`). -/
  | listed (I : List Id) (cwd : Cwd Id)
  /-- It has listed the packs and reads them (`src/ui/rebuild_index.rs:46-83`); `left` is what it still has
  to do after that (`src/ui/rebuild_index.rs:94-99`). The repository is not in its state: see `onRepo`. -/
  | running (I : List Id) (s : Rebuild.State Id) (left : List (Post Id))

/-- A state of a rebuild, over another repository. -/
def onRepo {Id : Type} (s : Rebuild.State Id) (R : Repo Id) : Rebuild.State Id := { s with world := ⟨R, s.world.cwd⟩ }

/-- Processes over one repository, and a rebuild-index. -/
structure Mixed (ι Id : Type) where
  shared : Shared ι Id
  rb : Rebuilder Id

variable {ι Id : Type} [DecidableEq ι] [LinearOrder Id]

/-- One step. -/
inductive Mixed.Step (ids : Ids Id) (may : Job Id → Prop) : Mixed ι Id → Mixed ι Id → Prop
  /-- Another process takes a step. -/
  | other (m m' : Shared ι Id) (r : Rebuilder Id) : Shared.Step may m m' → Mixed.Step ids may ⟨m, r⟩ ⟨m', r⟩
  /-- The rebuild lists the indexes. -/
  | indexes (m : Shared ι Id) (cwd : Cwd Id) :
      Mixed.Step ids may ⟨m, .no⟩ ⟨m, .listed (BMap.keys m.repo.indexes) cwd⟩
  /-- It lists the packs. -/
  | packs (m : Shared ι Id) (I : List Id) (cwd : Cwd Id) :
      Mixed.Step ids may ⟨m, .listed I cwd⟩
        ⟨m, .running I ⟨⟨m.repo, cwd⟩, BMap.keys m.repo.packs, [], .gather ⟨I, []⟩⟩ (I.map .rmIndex)⟩
  /-- One of its threads takes a step. -/
  | run (m : Shared ι Id) (I : List Id) (s t : Rebuild.State Id) (left : List (Post Id)) :
      Rebuild.Step ids true (onRepo s m.repo) t →
      Mixed.Step ids may ⟨m, .running I s left⟩ ⟨⟨t.world.repo, m.proc⟩, .running I t left⟩
  /-- The upload has returned and it removes an index. -/
  | post (m : Shared ι Id) (I : List Id) (s : Rebuild.State Id) (x : Index Id) (o : Post Id) (rest : List (Post Id)) :
      s.phase = .uploaded x →
      Mixed.Step ids may ⟨m, .running I s (o :: rest)⟩ ⟨⟨applyPost ids m.repo o, m.proc⟩, .running I s rest⟩

/-- What can come of a repository that no process has opened yet. -/
def Mixed.Reachable (ids : Ids Id) (may : Job Id → Prop) (R : Repo Id) (m : Mixed ι Id) : Prop :=
  Relation.ReflTransGen (Mixed.Step ids may) ⟨⟨R, fun _ => none⟩, .no⟩ m

/-- The index that the rebuild writes, once it has all of it. -/
def Rebuilder.index : Rebuilder Id → Option (Index Id)
  | .running _ s _ => match s.phase with
    | .wrote x | .copied x | .stored x | .uploaded x => some x
    | _ => none
  | _ => none

/-- The rebuild has come to its end, having stored this index. -/
def Rebuilder.finished (x : Index Id) : Rebuilder Id → Prop
  | .running _ s left => s.phase = .uploaded x ∧ left = []
  | _ => False

end Backpak.Pipeline
