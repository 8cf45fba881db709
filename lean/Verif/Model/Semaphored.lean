import Verif.Model.Semaphore

/-!
# The backend that limits connections (`src/backend/semaphored.rs`)

Threads call a B2 backend through `Semaphored`. The semaphore is that of `Model/Semaphore.lean`, step by
step. What B2 is asked and answers is left out; that a request takes time, is made again when it fails
(`src/backend/backblaze.rs:50-67`), and that what `read` returns is a stream still to be downloaded
(`b2/src/lib.rs:199-206`) is not.
-/

namespace Backpak.Semaphored

open Semaphore (at_)

/-- The calls of the trait `Backend` (`src/backend.rs:103-114`). -/
inductive Call
  | read
  | write
  | remove
  | list
deriving DecidableEq, Repr

/-- What a thread is doing. -/
inductive Doing
  /-- something else -/
  | idle
  /-- `semaphored::dec` (`src/backend/semaphored.rs:22,27,32,37`) -/
  | asking (c : Call)
  /-- the call of the inner backend, holding the guard (lines 23, 28, 33, 38) -/
  | requesting (c : Call)
  /-- reading what `read` returned, having dropped the guard (line 24) -/
  | downloading
deriving DecidableEq, Repr

structure State (T : Type) where
  sem : Semaphore.State T
  doing : T → Doing

/-- A repository just opened, `n` being its `concurrent_connections` (`src/backend.rs:402-410`): any `u32`, zero
too, for nothing looks at it (`src/ui/init.rs:45`, `src/backend/backblaze.rs:14-41`). -/
def init (T : Type) (n : Nat) : State T := ⟨Semaphore.init T n, fun _ => .idle⟩

variable {T : Type} [DecidableEq T]

/-- The thread now does something else. -/
def State.now (s : State T) (sem : Semaphore.State T) (t : T) (d : Doing) : State T :=
  ⟨sem, Function.update s.doing t d⟩

/-- The guard is dropped (`src/semaphored.rs:52-59`). -/
def dropped (s : Semaphore.State T) : Semaphore.State T :=
  if s.count = 0 then { s with held := s.held - 1, count := s.count + 1, wakers := s.wakers + 1 }
  else { s with held := s.held - 1, count := s.count + 1 }

inductive Step : State T → State T → Prop
  /-- a thread calls the backend -/
  | call (s : State T) (t : T) (c : Call) (h : s.doing t = .idle) (ho : s.sem.pc t = .out) :
    Step s (s.now (at_ s.sem t (.trying 1)) t (.asking c))
  /-- threads waiting for a guard try, sleep and wake; no guard is given out or dropped -/
  | waiting (s : State T) (sem : Semaphore.State T) (h : Semaphore.Step s.sem sem) (hh : sem.held = s.sem.held)
    (ho : ∀ t, sem.pc t = .out ↔ s.sem.pc t = .out) : Step s ⟨sem, s.doing⟩
  /-- the guard is there: the request is made -/
  | request (s : State T) (t : T) (c : Call) (h : s.doing t = .asking c) (ht : s.sem.pc t = .trying s.sem.count) :
    Step s (s.now { at_ s.sem t .out with count := s.sem.count - 1, held := s.sem.held + 1 } t (.requesting c))
  /-- the request fails and, a second later, is made again (`src/backend/backblaze.rs:60-63`) -/
  | again (s : State T) (t : T) (c : Call) (h : s.doing t = .requesting c) : Step s s
  /-- the inner backend returns: the guard is dropped, and of a successful `read` there is a stream -/
  | finish (s : State T) (t : T) (c : Call) (h : s.doing t = .requesting c) :
    Step s (s.now (dropped s.sem) t (if c = .read then .downloading else .idle))
  /-- the inner backend fails -/
  | fail (s : State T) (t : T) (c : Call) (h : s.doing t = .requesting c) : Step s (s.now (dropped s.sem) t .idle)
  /-- the stream is read to its end, or dropped -/
  | close (s : State T) (t : T) (h : s.doing t = .downloading) : Step s (s.now s.sem t .idle)

/-- The states that can come about. -/
def Reachable (n : Nat) (s : State T) : Prop := Relation.ReflTransGen Step (init T n) s

end Backpak.Semaphored
