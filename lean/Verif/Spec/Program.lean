import Verif.Model.Pipes

/-!
# What a program makes of its input

Said without pipes: a program is given its input in pieces of any size, and what it writes is put
together.
-/

namespace Backpak.Prog

variable {σ : Type}

/-- Given an input, the program may have come to a state, with some of the input unread and some bytes
written. -/
inductive At (p : Prog σ) (x : Bytes) : Bytes → Bytes → σ → Prop
  | start : At p x x [] p.start
  | read {a b out s k} : At p x (a ++ b) out s → p.next s = .read k → a ≠ [] → At p x b out (k a)
  | readEnd {out s k} : At p x [] out s → p.next s = .read k → At p x [] out (k [])
  | write {rest out s b s'} : At p x rest out s → p.next s = .write b s' → At p x rest (out ++ b) s'

/-- Given an input, the program may write some bytes and exit. -/
def Ran (p : Prog σ) (x out : Bytes) (code : Nat) : Prop := ∃ rest s, At p x rest out s ∧ p.next s = .exit code

/-- The program gives one answer, whatever the pieces. -/
def Computes (p : Prog σ) (f : Bytes → Option Bytes) : Prop :=
  ∀ x out code, Ran p x out code → (code = 0 → f x = some out) ∧ (code ≠ 0 → f x = none)

/-- The program cannot go on for ever without more input: some number gets smaller with every write and
every time it is told that its input ended. -/
def Settles (p : Prog σ) : Prop := ∃ rank : σ → Nat,
  (∀ s k, p.next s = .read k → rank (k []) < rank s) ∧ (∀ s b s', p.next s = .write b s' → rank s' < rank s)

end Backpak.Prog

/-! ## A program to show things with -/

namespace Backpak.Prog

inductive EachState
  | want
  | have_ (b : Bytes)
  | over
deriving DecidableEq, Repr

/-- Changes every byte by itself, as `tr` does; `cat` if it changes none. -/
def each (g : UInt8 → UInt8) : Prog EachState where
  start := .want
  next
    | .want => .read (fun b => if b = [] then .over else .have_ (b.map g))
    | .have_ b => .write b .want
    | .over => .exit 0

/-- What it has written when it has come to a state. -/
def EachState.Said (g : UInt8 → UInt8) (x rest out : Bytes) : EachState → Prop
  | .want => out ++ rest.map g = x.map g
  | .have_ b => out ++ b ++ rest.map g = x.map g
  | .over => out = x.map g

theorem each_at {g : UInt8 → UInt8} {x rest out : Bytes} {s : EachState} (h : (each g).At x rest out s) :
    s.Said g x rest out := by
  induction h with
  | start => rfl
  | @read a b out s k h hn ne ih =>
    cases s with
    | want =>
      simp only [each] at hn
      cases hn
      show EachState.Said g x b out (if a = [] then _ else _)
      rw [if_neg ne]
      simpa [EachState.Said] using ih
    | have_ b => cases hn
    | over => cases hn
  | @readEnd out s k h hn ih =>
    cases s with
    | want =>
      simp only [each] at hn
      cases hn
      simpa [EachState.Said] using ih
    | have_ b => cases hn
    | over => cases hn
  | @write rest out s b s' h hn ih =>
    cases s with
    | want => cases hn
    | have_ c =>
      simp only [each] at hn
      cases hn
      exact ih
    | over => cases hn

theorem each_computes (g : UInt8 → UInt8) : (each g).Computes (fun x => some (x.map g)) := by
  rintro x out code ⟨rest, s, h, hn⟩
  have := each_at h
  cases s with
  | want => cases hn
  | have_ b => cases hn
  | over =>
    simp only [each] at hn
    cases hn
    exact ⟨fun _ => congrArg some (Eq.symm this), fun h => absurd rfl h⟩

theorem each_settles (g : UInt8 → UInt8) : (each g).Settles := by
  refine ⟨fun | .want => 1 | .have_ _ => 2 | .over => 0, ?_, ?_⟩
  · intro s k hn
    cases s with
    | want =>
      simp only [each] at hn
      cases hn
      simp
    | have_ b => cases hn
    | over => cases hn
  · intro s b s' hn
    cases s with
    | want => cases hn
    | have_ c =>
      simp only [each] at hn
      cases hn
      simp
    | over => cases hn

end Backpak.Prog
