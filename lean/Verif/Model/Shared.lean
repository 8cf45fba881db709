import Verif.Model.Pipeline

/-!
# Several processes and one repository

Nothing in the program locks a repository: a command reads the indexes and snapshots when it starts
and from then on only writes (`src/ui/backup.rs:113-288`, `src/ui/prune.rs:60-236`). Here any number of
processes, each with a working directory of its own, take steps in any order over one repository.
That each loads what it needs from the repository in one instant is a simplification; so is that the
backend stores each object in one step.
-/

namespace Backpak.Pipeline

/-- A state of a run, over another repository. -/
def State.on {Id : Type} (s : State Id) (R : Repo Id) : State Id := { s with world := ⟨R, s.world.cwd⟩ }

/-- What a process has decided to do once it has read what it needs: what its pipeline is given, what was
in the repository and its working directory then, what its main thread sends, and what follows the join. -/
structure Job (Id : Type) where
  c : Cfg Id
  w : World Id
  main : List (Op Id)
  posts : List (Post Id)

/-- A process: its job, the state of its pipeline (the repository is not in it: see `State.on`), and
what it still has to do after the join. -/
structure Proc (Id : Type) where
  job : Job Id
  s : State Id
  left : List (Post Id)

/-- The repository, and the processes that have started. A process that has been killed takes no more
steps; a command that is run again is another process. -/
structure Shared (ι Id : Type) where
  repo : Repo Id
  proc : ι → Option (Proc Id)

variable {ι Id : Type} [DecidableEq ι] [LinearOrder Id]

/-- One step of one process. -/
inductive Shared.Step (may : Job Id → Prop) : Shared ι Id → Shared ι Id → Prop
  /-- A process reads the repository, as it is now, and starts. -/
  | start (m : Shared ι Id) (i : ι) (j : Job Id) : m.proc i = none → j.w.repo = m.repo → may j →
      Shared.Step may m ⟨m.repo, Function.update m.proc i (some ⟨j, init j.c j.w j.main, j.posts⟩)⟩
  /-- One of its threads takes a step. -/
  | run (m : Shared ι Id) (i : ι) (p : Proc Id) (t : State Id) : m.proc i = some p → p.s.joined = false →
      Pipeline.Step p.job.c (p.s.on m.repo) t →
      Shared.Step may m ⟨t.world.repo, Function.update m.proc i (some { p with s := t })⟩
  /-- It has joined its threads and does the next thing after that. -/
  | post (m : Shared ι Id) (i : ι) (p : Proc Id) (o : Post Id) (rest : List (Post Id)) :
      m.proc i = some p → p.s.joined = true → p.left = o :: rest →
      Shared.Step may m ⟨applyPost p.job.c.ids m.repo o, Function.update m.proc i (some { p with left := rest })⟩

/-- What can come of a repository that no process has opened yet. -/
def Shared.Reachable (may : Job Id → Prop) (R : Repo Id) (m : Shared ι Id) : Prop :=
  Relation.ReflTransGen (Shared.Step may) ⟨R, fun _ => none⟩ m

/-- A process that has come to its end. -/
def Proc.finished (p : Proc Id) : Prop := p.s.joined = true ∧ p.left = []

end Backpak.Pipeline
