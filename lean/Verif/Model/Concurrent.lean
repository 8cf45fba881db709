import Mathlib.Logic.Relation

/-!
# Running functions in threads (`src/concurrently.rs`) and giving up (`src/lib.rs:37-83`)

The semaphore that limits the threads is a number of permits here: only the thread that starts the others ever waits
for one, and for a single waiter the semaphore of `src/semaphored.rs` does as it should (C49).
-/

namespace Backpak.Conc

/-- How a function ends. -/
inductive Outcome (α : Type)
  | ok (v : α)
  | err
  | panic
deriving DecidableEq, Repr

/-- Where a thread is. It holds its permit until it has gone. -/
inductive Stage (α : Type)
  | running
  /-- its function has ended, and its result is in the list if it is one -/
  | ended (o : Outcome α)
  | gone (o : Outcome α)
deriving DecidableEq, Repr

/-- Where the thread is that started it all, and the process. -/
inductive Main (α : Type)
  | spawning
  | returned (rs : List α)
  /-- `thread::scope` panics if a thread has panicked -/
  | panicked
  /-- `fatal` has ended the process with code 1 -/
  | exited
deriving DecidableEq, Repr

structure State (α : Type) where
  threads : List (Stage α)
  permits : Nat
  results : List α
  main : Main α

/-- Nothing has been started. -/
def State.init {α : Type} (cores : Nat) : State α := ⟨[], cores, [], .spawning⟩

/-- `map_concurrently` (`src/concurrently.rs:63-87`) of `n` functions, the `i`-th of which may end as `may i` says. For
`concurrently` and `named_concurrently` (`src/concurrently.rs:20-61`) the results are of type `Unit`, and the list is
not kept. -/
inductive Step {α : Type} (n : Nat) (may : Nat → Outcome α → Prop) : State α → State α → Prop
  /-- `semaphored::dec`, then `spawn` -/
  | spawn {ts k rs} : ts.length < n →
    Step n may ⟨ts, k + 1, rs, .spawning⟩ ⟨ts ++ [.running], k, rs, .spawning⟩
  | ok {a b k rs v} : may a.length (.ok v) →
    Step n may ⟨a ++ .running :: b, k, rs, .spawning⟩ ⟨a ++ .ended (.ok v) :: b, k, rs ++ [v], .spawning⟩
  | err {a b k rs} : may a.length .err →
    Step n may ⟨a ++ .running :: b, k, rs, .spawning⟩ ⟨a ++ .ended .err :: b, k, rs, .spawning⟩
  | panic {a b k rs} : may a.length .panic →
    Step n may ⟨a ++ .running :: b, k, rs, .spawning⟩ ⟨a ++ .ended .panic :: b, k, rs, .spawning⟩
  /-- the permit is given back when the thread drops it, also if it unwinds -/
  | release {a b k rs o} : o ≠ .err →
    Step n may ⟨a ++ .ended o :: b, k, rs, .spawning⟩ ⟨a ++ .gone o :: b, k + 1, rs, .spawning⟩
  /-- `fatal` -/
  | fatal {a b k rs} :
    Step n may ⟨a ++ .ended .err :: b, k, rs, .spawning⟩ ⟨a ++ .ended .err :: b, k, rs, .exited⟩
  /-- all have been started and all have ended: the scope is left -/
  | join {ts k rs} : ts.length = n → (∀ t ∈ ts, ∃ o, t = .gone o ∧ o ≠ .panic) →
    Step n may ⟨ts, k, rs, .spawning⟩ ⟨ts, k, rs, .returned rs⟩
  | joinPanic {ts k rs} : ts.length = n → (∀ t ∈ ts, ∃ o, t = .gone o) → .gone .panic ∈ ts →
    Step n may ⟨ts, k, rs, .spawning⟩ ⟨ts, k, rs, .panicked⟩

def Reachable {α : Type} (n : Nat) (may : Nat → Outcome α → Prop) (cores : Nat) : State α → Prop :=
  Relation.ReflTransGen (Step n may) (.init cores)

/-! ## Children -/

/-- Whose a process is. -/
inductive Owner
  | ours
  | other
deriving DecidableEq, Repr

/-- How far `fatal` is. -/
inductive Fatal
  | no
  /-- holding the lock of `CHILDREN`, with these still to be signalled -/
  | killing (left : List Nat)
  /-- the lock is released -/
  | leaving
  | exited
deriving DecidableEq, Repr

/-- The processes there are, the numbers in `CHILDREN` (`src/lib.rs:54-55`), the children that have been spawned and are
not yet there, and whom `fatal` has signalled. -/
structure Kids where
  procs : Nat → Option Owner
  guards : List Nat
  fresh : List Nat
  fatal : Fatal
  signalled : List (Nat × Owner)

def Kids.init (procs : Nat → Option Owner) : Kids := ⟨procs, [], [], .no, []⟩

/-- The lock of `CHILDREN` is free. -/
def Fatal.unlocked : Fatal → Bool
  | .killing _ => false
  | .exited => false
  | _ => true

/-- The process has not ended. -/
def Fatal.alive : Fatal → Bool
  | .exited => false
  | _ => true

def setProc (procs : Nat → Option Owner) (p : Nat) (o : Option Owner) : Nat → Option Owner :=
  fun q => if q = p then o else procs q

/-- Threads that start children (`src/backend/filter.rs:70-101,104-156`), other processes, and one thread that calls
`fatal` (`src/lib.rs:74-83`). A child's number is free for others once it has been waited for
(`src/backend/filter.rs:45,150`); its `ChildGuard` is dropped later, with the reader or at the end of the write. -/
inductive Kids.Step : Kids → Kids → Prop
  | spawn {procs guards fresh f sig} (p : Nat) : f.alive = true → procs p = none →
    Step ⟨procs, guards, fresh, f, sig⟩ ⟨setProc procs p (some .ours), guards, p :: fresh, f, sig⟩
  /-- `ChildGuard::new` -/
  | guard {procs guards fresh f sig} (p : Nat) : f.unlocked = true → p ∈ fresh →
    Step ⟨procs, guards, fresh, f, sig⟩ ⟨procs, p :: guards, fresh.erase p, f, sig⟩
  /-- it has exited and been waited for -/
  | reap {procs guards fresh f sig} (p : Nat) : f.alive = true → procs p = some .ours → p ∉ fresh →
    Step ⟨procs, guards, fresh, f, sig⟩ ⟨setProc procs p none, guards, fresh, f, sig⟩
  /-- `ChildGuard::drop` -/
  | unguard {procs guards fresh f sig} (p : Nat) : f.unlocked = true → p ∈ guards →
    Step ⟨procs, guards, fresh, f, sig⟩ ⟨procs, guards.filter (· ≠ p), fresh, f, sig⟩
  | otherStarts {procs guards fresh f sig} (p : Nat) : procs p = none →
    Step ⟨procs, guards, fresh, f, sig⟩ ⟨setProc procs p (some .other), guards, fresh, f, sig⟩
  | otherEnds {procs guards fresh f sig} (p : Nat) : procs p = some .other →
    Step ⟨procs, guards, fresh, f, sig⟩ ⟨setProc procs p none, guards, fresh, f, sig⟩
  /-- the lock is taken -/
  | fatal {procs guards fresh sig} :
    Step ⟨procs, guards, fresh, .no, sig⟩ ⟨procs, guards, fresh, .killing guards, sig⟩
  | kill {procs guards fresh p left sig o} : procs p = some o →
    Step ⟨procs, guards, fresh, .killing (p :: left), sig⟩ ⟨procs, guards, fresh, .killing left, sig ++ [(p, o)]⟩
  | killNobody {procs guards fresh p left sig} : procs p = none →
    Step ⟨procs, guards, fresh, .killing (p :: left), sig⟩ ⟨procs, guards, fresh, .killing left, sig⟩
  | unlock {procs guards fresh sig} :
    Step ⟨procs, guards, fresh, .killing [], sig⟩ ⟨procs, guards, fresh, .leaving, sig⟩
  | exit {procs guards fresh sig} :
    Step ⟨procs, guards, fresh, .leaving, sig⟩ ⟨procs, guards, fresh, .exited, sig⟩

end Backpak.Conc
