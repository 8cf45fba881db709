import Mathlib.Logic.Function.Basic
import Mathlib.Logic.Relation

/-!
# The counting semaphore (`src/semaphored.rs`)

Any number of threads acquire; guards are counted, not tied to threads, because some are acquired in
one thread and dropped in another (`src/concurrently.rs:31-38`). Atomic operations are single steps.
The count is a `u32`; that it neither underflows nor exceeds its start is `C48`.
-/

namespace Backpak.Semaphore

/-- Where a thread is in `dec` (`src/semaphored.rs:19-50`). -/
inductive Pc
  /-- not in it -/
  | out
  /-- about to compare and exchange `prev` -/
  | trying (prev : Nat)
  /-- has seen zero and is about to wait -/
  | drowsy
  /-- waiting in the kernel -/
  | asleep
deriving DecidableEq, Repr

structure State (T : Type) where
  count : Nat
  /-- how many guards there are -/
  held : Nat
  /-- how many dropped guards have yet to call `wake_one` (`src/semaphored.rs:54-57`) -/
  wakers : Nat
  pc : T → Pc

/-- At first. -/
def init (T : Type) (n : Nat) : State T := ⟨n, 0, 0, fun _ => .out⟩

variable {T : Type} [DecidableEq T]

def at_ (s : State T) (t : T) (p : Pc) : State T := { s with pc := Function.update s.pc t p }

inductive Step : State T → State T → Prop
  /-- call `dec` -/
  | enter (s : State T) (t : T) (h : s.pc t = .out) : Step s (at_ s t (.trying 1))
  /-- the exchange succeeds: return with a guard -/
  | take (s : State T) (t : T) (h : s.pc t = .trying s.count) :
    Step s { at_ s t .out with count := s.count - 1, held := s.held + 1 }
  /-- it fails, perhaps spuriously, finding a zero -/
  | empty (s : State T) (t : T) (prev : Nat) (h : s.pc t = .trying prev) (h0 : s.count = 0) : Step s (at_ s t .drowsy)
  /-- it fails, perhaps spuriously, finding something else -/
  | retry (s : State T) (t : T) (prev : Nat) (h : s.pc t = .trying prev) (h0 : s.count ≠ 0) :
    Step s (at_ s t (.trying s.count))
  /-- `wait` goes to sleep if there is still a zero -/
  | sleep (s : State T) (t : T) (h : s.pc t = .drowsy) (h0 : s.count = 0) : Step s (at_ s t .asleep)
  /-- else it returns at once -/
  | stay (s : State T) (t : T) (h : s.pc t = .drowsy) (h0 : s.count ≠ 0) : Step s (at_ s t (.trying 1))
  /-- it may also return for no reason -/
  | stir (s : State T) (t : T) (h : s.pc t = .asleep) : Step s (at_ s t (.trying 1))
  /-- drop a guard when there is a zero: a call to `wake_one` is to follow -/
  | post (s : State T) (h : s.held ≠ 0) (h0 : s.count = 0) :
    Step s { s with held := s.held - 1, count := s.count + 1, wakers := s.wakers + 1 }
  /-- drop a guard when there is not -/
  | drop (s : State T) (h : s.held ≠ 0) (h0 : s.count ≠ 0) :
    Step s { s with held := s.held - 1, count := s.count + 1 }
  /-- `wake_one` wakes a thread -/
  | wake (s : State T) (t : T) (h : s.wakers ≠ 0) (ht : s.pc t = .asleep) :
    Step s { at_ s t (.trying 1) with wakers := s.wakers - 1 }
  /-- there was none to wake -/
  | wakeNone (s : State T) (h : s.wakers ≠ 0) (ht : ∀ t, s.pc t ≠ .asleep) : Step s { s with wakers := s.wakers - 1 }

/-- The states that can come about, starting with a count. -/
def Reachable (n : Nat) (s : State T) : Prop := Relation.ReflTransGen Step (init T n) s

end Backpak.Semaphore
