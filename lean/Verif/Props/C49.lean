import Verif.Props.C48

/-!
# C49 - A semaphore waiter is woken when a slot is free
-/

namespace Backpak.C49

open Semaphore

variable {T : Type} [DecidableEq T]

/-- The claim, of a state: if a slot is free and a thread sleeps, somebody is about to wake one, or
another thread is about to try for the slot. -/
def Attended (s : State T) : Prop :=
  s.count ≠ 0 → ∀ t, s.pc t = .asleep → s.wakers ≠ 0 ∨ ∃ u, s.pc u ≠ .out ∧ s.pc u ≠ .asleep

/-- Nothing can happen in a state but a thread calling `dec` or `wait` returning for no reason. -/
def Stuck (s : State T) : Prop :=
  ∀ s', Step s s' → ∃ t, (s.pc t = .out ∨ s.pc t = .asleep) ∧ s' = at_ s t (.trying 1)

theorem stuck_of {s : State T} (h1 : s.held = 0) (h2 : s.wakers = 0) (h3 : ∀ t, s.pc t = .out ∨ s.pc t = .asleep) :
    Stuck s := by
  intro s' hs
  have no : ∀ {t : T} {p : Pc}, s.pc t = p → p ≠ .out → p ≠ .asleep → False := by
    intro t p h g1 g2
    rcases h3 t with e | e
    · exact g1 (h.symm.trans e)
    · exact g2 (h.symm.trans e)
  cases hs with
  | enter t ht => exact ⟨t, .inl ht, rfl⟩
  | take t ht => exact (no ht (by simp) (by simp)).elim
  | empty t prev ht h0 => exact (no ht (by simp) (by simp)).elim
  | retry t prev ht h0 => exact (no ht (by simp) (by simp)).elim
  | sleep t ht h0 => exact (no ht (by simp) (by simp)).elim
  | stay t ht h0 => exact (no ht (by simp) (by simp)).elim
  | stir t ht => exact ⟨t, .inr ht, rfl⟩
  | post hh h0 => exact absurd h1 hh
  | drop hh h0 => exact absurd h1 hh
  | wake t hw ht => exact absurd h2 hw
  | wakeNone hw ht => exact absurd h2 hw

/-- Two slots, both held, and two threads asleep. One guard is dropped, then the other before the
first has woken anyone, so that only one thread is woken. It takes a slot and gives it back. -/
def lost : State (Fin 4) :=
  stateAfter 2 [.enter 0, .exchange 0, .exchange 0, .enter 1, .exchange 1, .enter 2, .exchange 2, .wait 2, .enter 3,
    .exchange 3, .wait 3, .release, .release, .wake 2, .exchange 2, .exchange 2, .release]

/-- The claim is false: now both slots are free, a thread is asleep, and nothing is going to wake it. -/
theorem lost_wakeup : Reachable 2 lost ∧ lost.count = 2 ∧ lost.pc 3 = .asleep ∧ ¬ Attended lost ∧ Stuck lost := by
  refine ⟨stateAfter_reachable _ _, by decide, by decide, ?_, stuck_of (by decide) (by decide) (by decide)⟩
  intro h
  rcases h (by decide) 3 (by decide) with h | ⟨u, h1, h2⟩
  · exact h (by decide)
  · revert u; decide

/-- Threads other than `w` never wait: they never call `dec`. -/
def Only (w : T) : State T → State T → Prop := fun s s' => Step s s' ∧ ∀ t, t ≠ w → s'.pc t = .out

/-- With a single thread that acquires - as when one thread starts others - it never sleeps beside a
free slot with nobody about to wake it. -/
theorem one_waiter_partial {n : Nat} {w : T} {s : State T} (h : Relation.ReflTransGen (Only w) (init T n) s) :
    (∀ t, t ≠ w → s.pc t = .out) ∧ (s.count ≠ 0 → s.pc w = .asleep → s.wakers ≠ 0) := by
  induction h with
  | refl => exact ⟨fun _ _ => rfl, fun _ h => by cases h⟩
  | @tail s s' _ hs ih =>
    obtain ⟨hs, ho⟩ := hs
    obtain ⟨ih1, ih2⟩ := ih
    refine ⟨ho, ?_⟩
    have is_w : ∀ {t : T} {p : Pc}, s.pc t = p → p ≠ .out → t = w := by
      intro t p h g
      by_contra e
      exact g (h.symm.trans (ih1 t e))
    cases hs with
    | enter t ht =>
      intro h0 hw
      by_cases e : w = t
      · subst e; simp [at_] at hw
      · simp only [at_, Function.update_of_ne e] at hw; exact ih2 h0 hw
    | take t ht =>
      obtain rfl := is_w ht (by simp)
      intro _ hw
      simp [at_] at hw
    | empty t prev ht h0 =>
      obtain rfl := is_w ht (by simp)
      intro _ hw
      simp [at_] at hw
    | retry t prev ht h0 =>
      obtain rfl := is_w ht (by simp)
      intro _ hw
      simp [at_] at hw
    | sleep t ht h0 => intro h1; exact absurd h0 h1
    | stay t ht h0 =>
      obtain rfl := is_w ht (by simp)
      intro _ hw
      simp [at_] at hw
    | stir t ht =>
      obtain rfl := is_w ht (by simp)
      intro _ hw
      simp [at_] at hw
    | post hh h0 => intro _ _; exact Nat.succ_ne_zero _
    | drop hh h0 => exact fun _ hw => ih2 h0 hw
    | wake t hh ht =>
      obtain rfl := is_w ht (by simp)
      intro _ hw
      simp [at_] at hw
    | wakeNone hh ht => exact fun _ hw => absurd hw (ht w)

/-- What a call to `wake_one` then does: the thread that sleeps is awake. -/
theorem wakes_it {w : T} {s s' : State T} (h1 : ∀ t, t ≠ w → s.pc t = .out) (hw : s.pc w = .asleep)
    (h : Step s s') (hd : s'.wakers < s.wakers) : s'.pc w = .trying 1 := by
  cases h with
  | wake t hh ht =>
    have : t = w := by
      by_contra e
      rw [h1 t e] at ht; cases ht
    subst this
    simp [at_]
  | wakeNone hh ht => exact absurd hw (ht w)
  | post hh h0 => exact absurd hd (Nat.not_lt.mpr (Nat.le_succ _))
  | _ => simp [at_] at hd

/-- With a single slot, however many threads there are, none sleeps beside it unattended. -/
theorem one_slot_partial {s : State T} (h : Reachable 1 s) : Attended s := by
  have key : ∀ {s : State T}, Reachable 1 s → s.count ≠ 0 → ∀ t, s.pc t = .asleep →
      s.wakers ≠ 0 ∨ ∃ u, s.pc u ≠ .out ∧ s.pc u ≠ .asleep := by
    intro s h
    induction h with
    | refl => intro _ t h; cases h
    | @tail s s' hr hs ih =>
      have hi := C48.inv hr
      have awake : ∀ (s : State T) (t : T) (k : Nat), (at_ s t (.trying k)).pc t ≠ .out ∧ (at_ s t (.trying k)).pc t ≠ .asleep := by
        intro s t k; simp [at_]
      cases hs with
      | enter t ht => exact fun _ _ _ => .inr ⟨t, awake s t 1⟩
      | take t ht =>
        intro h0
        have := hi.total
        have := hi.positive t _ ht
        exact absurd (show s.count - 1 = 0 by omega) h0
      | empty t prev ht h0 => exact fun h1 => absurd h0 h1
      | retry t prev ht h0 => exact fun _ _ _ => .inr ⟨t, awake s t _⟩
      | sleep t ht h0 => exact fun h1 => absurd h0 h1
      | stay t ht h0 => exact fun _ _ _ => .inr ⟨t, awake s t _⟩
      | stir t ht => exact fun _ _ _ => .inr ⟨t, awake s t _⟩
      | post hh h0 => exact fun _ _ _ => .inl (Nat.succ_ne_zero _)
      | drop hh h0 =>
        have := hi.total
        exact absurd (show s.count = 0 by omega) h0
      | wake t hh ht => exact fun _ _ _ => .inr ⟨t, awake s t _⟩
      | wakeNone hh ht => exact fun _ t h => absurd h (ht t)
  exact key h

/-- A thread that acquires three of two slots sleeps until one is given back. -/
example : ∃ s : State (Fin 1), Relation.ReflTransGen (Only 0) (init (Fin 1) 2) s ∧ s.pc 0 = .asleep ∧ s.count = 1 ∧
    s.wakers = 1 := by
  have key : ∀ (ms : List (Move (Fin 1))) {s s' : State (Fin 1)}, moves ms s = some s' →
      Relation.ReflTransGen (Only 0) s s' := by
    intro ms
    induction ms with
    | nil => intro s s' h; cases h; exact .refl
    | cons m ms ih =>
      intro s s' h
      obtain ⟨s1, h1, h2⟩ := Option.bind_eq_some_iff.mp h
      exact .head ⟨move_step h1, fun t ht => absurd (Subsingleton.elim t 0) ht⟩ (ih h2)
  have hm : (moves [.enter 0, .exchange 0, .exchange 0, .enter 0, .exchange 0, .enter 0, .exchange 0, .wait 0, .release]
      (init (Fin 1) 2)).map (fun s => (s.pc 0, s.count, s.wakers)) = some (.asleep, 1, 1) := by decide
  obtain ⟨s, h1, h2⟩ := Option.map_eq_some_iff.mp hm
  exact ⟨s, key _ h1, congrArg Prod.fst h2, congrArg (·.2.1) h2, congrArg (·.2.2) h2⟩

end Backpak.C49
