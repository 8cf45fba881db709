import Verif.Lemmas.SemaphoreRun

/-!
# C48 - The counting semaphore limits concurrency
-/

namespace Backpak.C48

open Semaphore

variable {T : Type} [DecidableEq T]

/-- What holds all the time: slots are free or held; and a thread never expects a zero. -/
structure Inv (n : Nat) (s : State T) : Prop where
  total : s.count + s.held = n
  positive : ∀ t prev, s.pc t = .trying prev → prev ≠ 0

theorem at_trying {s : State T} {t : T} {p : Pc} (h : ∀ u prev, s.pc u = .trying prev → prev ≠ 0)
    (hp : ∀ prev, p = .trying prev → prev ≠ 0) : ∀ u prev, (at_ s t p).pc u = .trying prev → prev ≠ 0 := by
  intro u prev hu
  unfold at_ at hu
  by_cases e : u = t
  · subst e; simp only [Function.update_self] at hu; exact hp prev hu
  · simp only [Function.update_of_ne e] at hu; exact h u prev hu

theorem step_inv {n : Nat} {s s' : State T} (h : Inv n s) (hs : Step s s') : Inv n s' := by
  have one : ∀ prev, (.trying 1 : Pc) = .trying prev → prev ≠ 0 := by
    intro prev e; cases e; decide
  cases hs with
  | enter t ht => exact ⟨h.total, at_trying h.positive one⟩
  | take t ht =>
    refine ⟨?_, at_trying h.positive (by intro prev e; cases e)⟩
    have := h.positive t _ ht
    have := h.total
    show s.count - 1 + (s.held + 1) = n
    omega
  | empty t prev ht h0 => exact ⟨h.total, at_trying h.positive (by intro prev e; cases e)⟩
  | retry t prev ht h0 => exact ⟨h.total, at_trying h.positive (by intro prev e; cases e; exact h0)⟩
  | sleep t ht h0 => exact ⟨h.total, at_trying h.positive (by intro prev e; cases e)⟩
  | stay t ht h0 => exact ⟨h.total, at_trying h.positive one⟩
  | stir t ht => exact ⟨h.total, at_trying h.positive one⟩
  | post hh h0 =>
    refine ⟨?_, h.positive⟩
    have := h.total
    show s.count + 1 + (s.held - 1) = n
    omega
  | drop hh h0 =>
    refine ⟨?_, h.positive⟩
    have := h.total
    show s.count + 1 + (s.held - 1) = n
    omega
  | wake t hw ht => exact ⟨h.total, at_trying h.positive one⟩
  | wakeNone hw ht => exact ⟨h.total, h.positive⟩

theorem inv {n : Nat} {s : State T} (h : Reachable n s) : Inv n s := by
  unfold Reachable at h
  induction h with
  | refl => exact ⟨rfl, fun t prev h => by cases h⟩
  | tail _ hs ih => exact step_inv ih hs

/-- However many threads there are and whatever they do: at most `n` guards exist at once, the count
is the number of those that could still be given out, so at most `n`; and the exchange never takes
one from zero. -/
theorem limited {n : Nat} {s : State T} (h : Reachable n s) :
    s.held ≤ n ∧ s.count = n - s.held ∧ s.count ≤ n ∧ ∀ t, s.pc t = .trying s.count → s.count ≠ 0 := by
  have hi := inv h
  have := hi.total
  exact ⟨by omega, by omega, by omega, fun t ht => hi.positive t _ ht⟩

/-- Two guards of two can be held while a third thread sleeps. -/
example : ∃ s : State (Fin 3), Reachable 2 s ∧ s.held = 2 ∧ s.count = 0 ∧ s.pc 2 = .asleep :=
  ⟨stateAfter 2 [.enter 0, .exchange 0, .exchange 0, .enter 1, .exchange 1, .enter 2, .exchange 2, .wait 2],
    stateAfter_reachable _ _, by decide, by decide, by decide⟩

end Backpak.C48
