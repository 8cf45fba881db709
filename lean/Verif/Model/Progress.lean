import Mathlib.Logic.Relation
import Mathlib.Order.Defs.PartialOrder

/-!
# The thread that shows progress (`src/progress.rs:73-138`)

A command starts it, works, and then joins it (`src/ui/backup.rs:105-113,168-211`, `src/ui/prune.rs:180-223`,
`src/ui/copy.rs:117-154`, `src/ui/check.rs:69-93`). It draws what it finds in counters that other threads increase,
waits for a tenth of a second, or until it is woken, and so on until it is told that the work is done.

Atomics are sequentially consistent here. Time is a number that goes up; anything may take any time.
-/

namespace Backpak.Progress

/-- How drawing ends. `println!` panics if it cannot print; `clear_last_lines` says so (`src/ui/backup.rs:290-298`). -/
inductive Drew
  | ok
  | err
  | panic
deriving DecidableEq, Repr

/-- Where the command is (`src/progress.rs:94-105`). -/
inductive MainAt
  | working
  /-- the flag is set; about to unpark the thread -/
  | flagged
  /-- waiting for it -/
  | joining
  /-- `join` has returned, perhaps with a warning -/
  | joined
  /-- the thread had panicked: `self.handle.join().unwrap()` -/
  | panicked
deriving DecidableEq, Repr

/-- Where the thread is (`periodically`, `src/progress.rs:107-138`). -/
inductive ThreadAt
  /-- at the head of the outer loop (line 116) -/
  | begin (last : Bool) (i : Nat)
  /-- about to draw (line 120), knowing until when to wait then -/
  | draw (last : Bool) (i next : Nat)
  /-- about to look at the flag (line 128) -/
  | look (i next : Nat)
  /-- the flag was not set; about to look at the clock (line 133) -/
  | time (i next : Nat)
  /-- in `park_timeout` (line 138) -/
  | park (i next : Nat)
  | ended (r : Drew)
deriving DecidableEq, Repr

/-- Everything. `σ` is what the counters say. -/
structure State (σ : Type) where
  stats : σ
  main : MainAt
  thread : ThreadAt
  flag : Bool
  /-- `unpark` was called and no `park` has noticed -/
  token : Bool
  clock : Nat
  /-- what was drawn -/
  shown : List (Nat × σ)
  /-- what the counters said when the flag was set; only for talking about it -/
  final : Option σ

variable {σ : Type} [PartialOrder σ]

/-- `ProgressThread::spawn` (`src/progress.rs:79-92`). -/
def init (x : σ) : State σ := ⟨x, .working, .begin false 0, false, false, 0, [], none⟩

/-- One step of the thread. `rate` is how long it waits (`src/progress.rs:83`). -/
inductive ThreadStep (rate : Nat) : State σ → State σ → Prop
  | begin (s last i) : s.thread = .begin last i → ThreadStep rate s { s with thread := .draw last i (s.clock + rate) }
  | draw (s i next) : s.thread = .draw false i next →
      ThreadStep rate s { s with thread := .look i next, shown := s.shown ++ [(i, s.stats)] }
  | drawLast (s i next) : s.thread = .draw true i next →
      ThreadStep rate s { s with thread := .ended .ok, shown := s.shown ++ [(i, s.stats)] }
  | drawErr (s last i next) : s.thread = .draw last i next → ThreadStep rate s { s with thread := .ended .err }
  | drawPanic (s last i next) : s.thread = .draw last i next → ThreadStep rate s { s with thread := .ended .panic }
  | told (s i next) : s.thread = .look i next → s.flag = true →
      ThreadStep rate s { s with thread := .begin true (i + 1) }
  | notYet (s i next) : s.thread = .look i next → s.flag = false → ThreadStep rate s { s with thread := .time i next }
  | due (s i next) : s.thread = .time i next → next ≤ s.clock →
      ThreadStep rate s { s with thread := .begin false (i + 1) }
  | early (s i next) : s.thread = .time i next → s.clock < next → ThreadStep rate s { s with thread := .park i next }
  | unparked (s i next) : s.thread = .park i next → s.token = true →
      ThreadStep rate s { s with thread := .look i next, token := false }
  /-- the time is up, or it was woken for no reason: `park_timeout` promises nothing -/
  | woke (s i next) : s.thread = .park i next → ThreadStep rate s { s with thread := .look i next }

/-- A step of anything else. -/
inductive OtherStep : State σ → State σ → Prop
  | tick (s t) : s.clock ≤ t → OtherStep s { s with clock := t }
  /-- The work goes on; counters only go up. When the command has failed its threads may still be at it. -/
  | work (s x) : s.stats ≤ x → OtherStep s { s with stats := x }
  | store (s) : s.main = .working → OtherStep s { s with main := .flagged, flag := true, final := some s.stats }
  | unpark (s) : s.main = .flagged → OtherStep s { s with main := .joining, token := true }
  /-- An error is only warned about (`src/progress.rs:100-104`). -/
  | join (s r) : s.main = .joining → s.thread = .ended r → r ≠ .panic → OtherStep s { s with main := .joined }
  | joinPanic (s) : s.main = .joining → s.thread = .ended .panic → OtherStep s { s with main := .panicked }

/-- One step. -/
def Step (rate : Nat) (s t : State σ) : Prop := ThreadStep rate s t ∨ OtherStep s t

def Reachable (rate : Nat) (x : σ) (s : State σ) : Prop := Relation.ReflTransGen (Step rate) (init x) s

end Backpak.Progress
