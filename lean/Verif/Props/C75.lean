import Verif.Model.Concurrent
import Mathlib.Data.List.Perm.Basic
import Mathlib.Tactic.Linarith

/-!
# C75: work done by many threads is all done, or the program ends with an error
-/

namespace Backpak.C75

open Conc

variable {α : Type} {n : Nat} {may : Nat → Outcome α → Prop} {cores : Nat}

/-- What a thread has to show. -/
def value : Stage α → Option α
  | .ended (.ok v) => some v
  | .gone (.ok v) => some v
  | _ => none

/-- How its function has ended. -/
def outcome : Stage α → Option (Outcome α)
  | .running => none
  | .ended o => some o
  | .gone o => some o

/-- It has been started and has not gone. -/
def active : Stage α → Bool
  | .gone _ => false
  | _ => true

structure Inv (n : Nat) (may : Nat → Outcome α → Prop) (cores : Nat) (s : State α) : Prop where
  few : s.threads.length ≤ n
  results : s.results.Perm (s.threads.filterMap value)
  ends : ∀ i t o, s.threads[i]? = some t → outcome t = some o → may i o
  permits : s.permits + s.threads.countP active = cores
  gone : .gone .err ∉ s.threads
  back : ∀ rs, s.main = .returned rs → rs = s.results ∧ s.threads.length = n ∧
    ∀ t ∈ s.threads, ∃ o, t = .gone o ∧ o ≠ .panic
  failed : s.main = .exited → ∃ t ∈ s.threads, outcome t = some .err
  panicked : s.main = .panicked → ∃ t ∈ s.threads, outcome t = some .panic

/-- One thread goes on. -/
theorem get_replace {a b : List (Stage α)} {x y t : Stage α} {i : Nat} (h : (a ++ y :: b)[i]? = some t) :
    (i = a.length ∧ t = y) ∨ (a ++ x :: b)[i]? = some t := by
  by_cases hi : i = a.length
  · subst hi
    left
    simpa using h.symm
  · right
    rcases Nat.lt_or_gt_of_ne hi with h1 | h1
    · rw [List.getElem?_append_left h1] at h ⊢
      exact h
    · rw [List.getElem?_append_right (by omega)] at h ⊢
      have : i - a.length = (i - a.length - 1) + 1 := by omega
      rw [this, List.getElem?_cons_succ] at h ⊢
      exact h

theorem step_inv {s s' : State α} (h : Step n may s s') (hi : Inv n may cores s) : Inv n may cores s' := by
  obtain ⟨h1, h2, h3, h4, h5, h6, h7, h8⟩ := hi
  cases h with
  | @spawn ts k rs hl =>
    refine ⟨by simpa using Nat.succ_le_of_lt hl, by simpa [List.filterMap_cons, value] using h2, ?_, ?_, by simpa using h5, by simp, by simp, by simp⟩
    · intro i t o ht ho
      dsimp only at ht
      rw [List.getElem?_append] at ht
      split at ht
      · exact h3 i t o ht ho
      · rw [List.getElem?_singleton] at ht
        split at ht
        · cases ht; cases ho
        · cases ht
    · dsimp only at h4 ⊢
      rw [List.countP_append]
      simp only [List.countP_cons, List.countP_nil, active, if_true]
      omega
  | @ok a b k rs v hm =>
    refine ⟨by simpa using h1, ?_, ?_, ?_, by simpa using h5, by simp, by simp, by simp⟩
    · dsimp only at h2 ⊢
      rw [List.filterMap_append, List.filterMap_cons_some (show value (.ended (.ok v)) = some v from rfl)]
      rw [List.filterMap_append, List.filterMap_cons_none (show value (.running : Stage α) = none from rfl)] at h2
      exact ((h2.append_right [v]).trans (List.perm_append_comm (l₂ := [v]))).trans
        (List.perm_middle (l₁ := a.filterMap value)).symm
    · intro i t o ht ho
      rcases get_replace (x := .running) ht with ⟨rfl, rfl⟩ | ht
      · cases ho; exact hm
      · exact h3 i t o ht ho
    · simpa [List.countP_append, List.countP_cons, active] using h4
  | @err a b k rs hm =>
    refine ⟨by simpa using h1, ?_, ?_, ?_, by simpa using h5, by simp, by simp, by simp⟩
    · simpa [List.filterMap_append, List.filterMap_cons, value] using h2
    · intro i t o ht ho
      rcases get_replace (x := .running) ht with ⟨rfl, rfl⟩ | ht
      · cases ho; exact hm
      · exact h3 i t o ht ho
    · simpa [List.countP_append, List.countP_cons, active] using h4
  | @panic a b k rs hm =>
    refine ⟨by simpa using h1, ?_, ?_, ?_, by simpa using h5, by simp, by simp, by simp⟩
    · simpa [List.filterMap_append, List.filterMap_cons, value] using h2
    · intro i t o ht ho
      rcases get_replace (x := .running) ht with ⟨rfl, rfl⟩ | ht
      · cases ho; exact hm
      · exact h3 i t o ht ho
    · simpa [List.countP_append, List.countP_cons, active] using h4
  | @release a b k rs o hne =>
    refine ⟨by simpa using h1, ?_, ?_, ?_, ?_, by simp, by simp, by simp⟩
    · cases o <;> simpa [List.filterMap_append, List.filterMap_cons, value] using h2
    · intro i t o' ht ho
      rcases get_replace (x := .ended o) ht with ⟨rfl, rfl⟩ | ht
      · cases ho
        exact h3 a.length (.ended o) o (by simp) rfl
      · exact h3 i t o' ht ho
    · simp only [List.countP_append, List.countP_cons, active] at h4 ⊢
      simp only [if_true, Bool.false_eq_true, if_false] at h4 ⊢
      omega
    · simp only [List.mem_append, List.mem_cons, reduceCtorEq, false_or, not_or] at h5 ⊢
      refine ⟨h5.1, fun e => ?_, h5.2⟩
      cases e
      exact hne rfl
  | @fatal a b k rs =>
    exact ⟨h1, h2, h3, h4, h5, by simp, fun _ => ⟨.ended .err, by simp, rfl⟩, by simp⟩
  | @join ts k rs hl hg =>
    refine ⟨h1, h2, h3, h4, h5, ?_, by simp, by simp⟩
    intro rs' h
    cases h
    exact ⟨rfl, hl, hg⟩
  | @joinPanic ts k rs hl hg hp =>
    exact ⟨h1, h2, h3, h4, h5, by simp, by simp, fun _ => ⟨_, hp, rfl⟩⟩

theorem inv {s : State α} (h : Reachable n may cores s) : Inv n may cores s := by
  induction h with
  | refl => exact ⟨Nat.zero_le _, List.Perm.refl _, by simp [State.init], by simp [State.init], by simp [State.init],
      by simp [State.init], by simp [State.init], by simp [State.init]⟩
  | tail _ hs ih => exact step_inv hs ih

/-- If the command carries on, every function has been run once and has succeeded, and the results are theirs, in
some order. -/
theorem all_done {s : State α} (h : Reachable n may cores s) {rs : List α} (hr : s.main = .returned rs) :
    ∃ vs : List α, vs.length = n ∧ (∀ i v, vs[i]? = some v → may i (.ok v)) ∧ rs.Perm vs := by
  have hi := inv h
  obtain ⟨rfl, hn, hg⟩ := hi.back rs hr
  have hv : ∀ t ∈ s.threads, ∃ v, t = .gone (.ok v) := by
    intro t ht
    obtain ⟨o, rfl, hp⟩ := hg t ht
    cases o with
    | ok v => exact ⟨v, rfl⟩
    | err => exact absurd ht hi.gone
    | panic => exact absurd rfl hp
  have key : ∀ l : List (Stage α), (∀ t ∈ l, ∃ v, t = .gone (.ok v)) →
      l = (l.filterMap value).map (fun v => .gone (.ok v)) := by
    intro l hl
    induction l with
    | nil => rfl
    | cons t l ih =>
      obtain ⟨v, rfl⟩ := hl t (by simp)
      rw [List.filterMap_cons_some (show value (.gone (.ok v)) = some v from rfl), List.map_cons,
        ← ih (fun t ht => hl t (List.mem_cons_of_mem _ ht))]
  have hk := key _ hv
  refine ⟨s.threads.filterMap value, ?_, ?_, hi.results⟩
  · have := congrArg List.length hk
    rw [List.length_map] at this
    omega
  · intro i v hv
    refine hi.ends i (.gone (.ok v)) (.ok v) ?_ rfl
    rw [hk, List.getElem?_map, hv]
    rfl

/-- The program ends with an error only if one of the functions failed, and panics only if one of them did. -/
theorem blamed {s : State α} (h : Reachable n may cores s) :
    (s.main = .exited → ∃ i < n, may i .err) ∧ (s.main = .panicked → ∃ i < n, may i .panic) := by
  have hi := inv h
  have key : ∀ o, (∃ t ∈ s.threads, outcome t = some o) → ∃ i < n, may i o := by
    rintro o ⟨t, ht, ho⟩
    obtain ⟨i, hl, hti⟩ := List.mem_iff_getElem.mp ht
    exact ⟨i, lt_of_lt_of_le hl hi.few, hi.ends i t o (by rw [List.getElem?_eq_getElem hl, hti]) ho⟩
  exact ⟨fun e => key _ (hi.failed e), fun e => key _ (hi.panicked e)⟩

/-- No more threads at a time than there are cores. -/
theorem limit {s : State α} (h : Reachable n may cores s) : s.threads.countP active ≤ cores := by
  have := (inv h).permits
  omega

/-- What is left to be done. -/
def left : Stage α → Nat
  | .running => 2
  | .ended _ => 1
  | .gone _ => 0

def measure (n : Nat) (s : State α) : Nat :=
  match s.main with
  | .spawning => 3 * (n - s.threads.length) + (s.threads.map left).sum + 1
  | _ => 0

theorem step_measure {s s' : State α} (h : Step n may s s') : measure n s' < measure n s := by
  cases h <;> simp only [measure, List.length_append, List.length_cons, List.length_nil, List.map_append, List.map_cons,
    List.map_nil, List.sum_append, List.sum_cons, List.sum_nil, left] <;> omega

/-- A run takes at most three steps for each function, and one. -/
theorem ends {k : Nat} {run : Nat → State α} (h0 : run 0 = .init cores)
    (hs : ∀ i < k, Step n may (run i) (run (i + 1))) : k ≤ 3 * n + 1 := by
  have key : ∀ i ≤ k, measure n (run i) + i ≤ 3 * n + 1 := by
    intro i
    induction i with
    | zero => intro _; rw [h0]; simp [measure, State.init]
    | succ i ih =>
      intro hi
      have h1 := ih (by omega)
      have h2 := step_measure (hs i (by omega))
      omega
  have := key k (le_refl k)
  omega

/-- Until it is over something can happen: if there is a core and every function ends some time, the threads do not
wait for ever. -/
theorem goes_on (hc : 0 < cores) (hm : ∀ i < n, ∃ o, may i o) {s : State α} (h : Reachable n may cores s)
    (hs : s.main = .spawning) : ∃ s', Step n may s s' := by
  have hi := inv h
  obtain ⟨ts, k, rs, main⟩ := s
  dsimp only at hs
  subst hs
  by_cases h1 : .running ∈ ts
  · obtain ⟨a, b, rfl⟩ := List.append_of_mem h1
    have hlt : a.length < n := by
      have := hi.few
      simp only [List.length_append, List.length_cons] at this
      omega
    obtain ⟨o, ho⟩ := hm _ hlt
    cases o with
    | ok v => exact ⟨_, .ok ho⟩
    | err => exact ⟨_, .err ho⟩
    | panic => exact ⟨_, .panic ho⟩
  by_cases h2 : ∃ o, .ended o ∈ ts
  · obtain ⟨o, ho⟩ := h2
    obtain ⟨a, b, rfl⟩ := List.append_of_mem ho
    by_cases he : o = .err
    · subst he; exact ⟨_, .fatal⟩
    · exact ⟨_, .release he⟩
  have h3 : ∀ t ∈ ts, ∃ o, t = .gone o := by
    intro t ht
    cases t with
    | running => exact absurd ht h1
    | ended o => exact absurd ⟨o, ht⟩ h2
    | gone o => exact ⟨o, rfl⟩
  have hf := hi.few
  have hp := hi.permits
  dsimp only at hf hp
  rcases Nat.lt_or_ge ts.length n with hl | hl
  · have hz : ts.countP active = 0 := by
      rw [List.countP_eq_zero]
      intro t ht
      obtain ⟨o, rfl⟩ := h3 t ht
      simp [active]
    cases k with
    | zero => omega
    | succ k => exact ⟨_, .spawn hl⟩
  · have hn : ts.length = n := le_antisymm hf hl
    by_cases hpn : .gone .panic ∈ ts
    · exact ⟨_, .joinPanic hn h3 hpn⟩
    · refine ⟨_, .join hn (fun t ht => ?_)⟩
      obtain ⟨o, rfl⟩ := h3 t ht
      exact ⟨o, rfl, fun e => hpn (e ▸ ht)⟩

/-! ## Children -/

/-- While `fatal` holds the lock it has only numbers that are in the list. -/
theorem killing_guards {s t : Kids} (h0 : ∀ l, s.fatal = .killing l → l ⊆ s.guards)
    (h : Relation.ReflTransGen Kids.Step s t) : ∀ l, t.fatal = .killing l → l ⊆ t.guards := by
  induction h with
  | refl => exact h0
  | tail _ hs ih =>
    cases hs with
    | spawn p ha hp => exact ih
    | guard p hu hp => intro l e; cases e; cases hu
    | reap p ha hp hf => exact ih
    | unguard p hu hp => intro l e; cases e; cases hu
    | otherStarts p hp => exact ih
    | otherEnds p hp => exact ih
    | fatal => intro l e; cases e; exact fun _ h => h
    | kill hp => intro l e; cases e; exact fun x hx => ih _ rfl (List.mem_cons_of_mem _ hx)
    | killNobody hp => intro l e; cases e; exact fun x hx => ih _ rfl (List.mem_cons_of_mem _ hx)
    | unlock => intro l e; cases e
    | exit => intro l e; cases e

/-- A program that fails signals every child whose guard there is when it begins to, if that child does not go in the
meantime. -/
theorem signals {s t : Kids} {l : List Nat} (hs : s.fatal = .killing l) {p : Nat} (hp : p ∈ l)
    (h0 : s.procs p = some .ours)
    (h : Relation.ReflTransGen (fun u v => Kids.Step u v ∧ v.procs p = some .ours) s t)
    (ht : t.fatal = .leaving ∨ t.fatal = .exited) : (p, .ours) ∈ t.signalled := by
  have key : t.procs p = some .ours ∧ ((p, .ours) ∈ t.signalled ∨ ∃ l', t.fatal = .killing l' ∧ p ∈ l') := by
    clear ht
    induction h with
    | refl => exact ⟨h0, .inr ⟨l, hs, hp⟩⟩
    | @tail b c hb hstep ih =>
      obtain ⟨hstep, hc⟩ := hstep
      refine ⟨hc, ?_⟩
      rcases ih with ⟨hb', ho | ⟨l', e1, e2⟩⟩
      · left
        cases hstep <;> first | exact ho | exact List.mem_append_left _ ho
      · cases hstep with
        | fatal => cases e1
        | @kill _ _ _ q left _ o hq =>
          cases e1
          rcases List.mem_cons.mp e2 with rfl | e2
          · dsimp only at hb'
            rw [hb'] at hq
            cases hq
            exact .inl (List.mem_append_right _ (by simp))
          · exact .inr ⟨left, rfl, e2⟩
        | @killNobody procs guards fresh q left sig hq =>
          cases e1
          rcases List.mem_cons.mp e2 with rfl | e2
          · dsimp only at hb'
            rw [hb'] at hq
            cases hq
          · exact .inr ⟨left, rfl, e2⟩
        | unlock => cases e1; cases e2
        | exit => cases e1
        | _ => exact .inr ⟨l', e1, e2⟩
  rcases key with ⟨_, h1 | ⟨l', e, _⟩⟩
  · exact h1
  · rcases ht with ht | ht <;> · rw [ht] at e; cases e

/-- Every number in the list is a child's. -/
def Current (k : Kids) : Prop := ∀ p ∈ k.guards, k.procs p = some .ours

/-- It signals only its own children in a run in which no child is waited for before its guard is dropped. -/
theorem only_ours_partial {procs : Nat → Option Owner} {t : Kids}
    (h : Relation.ReflTransGen (fun u v => Kids.Step u v ∧ Current v) (.init procs) t) :
    ∀ x ∈ t.signalled, x.2 = .ours := by
  have hpath : ∀ {u}, Relation.ReflTransGen (fun u v => Kids.Step u v ∧ Current v) (.init procs) u →
      Relation.ReflTransGen Kids.Step (.init procs) u ∧ Current u := by
    intro u hu
    induction hu with
    | refl => exact ⟨.refl, fun p hp => by cases hp⟩
    | tail _ hs ih => exact ⟨ih.1.tail hs.1, hs.2⟩
  induction h with
  | refl => intro x hx; cases hx
  | @tail b c hb hstep ih =>
    obtain ⟨hb1, hb2⟩ := hpath hb
    have hk := killing_guards (s := .init procs) (fun l e => by cases e) hb1
    cases hstep.1 with
    | @kill procs' guards fresh p left sig o hp =>
      intro x hx
      rcases List.mem_append.mp hx with hx | hx
      · exact ih x hx
      · rw [List.mem_singleton.mp hx]
        have : procs' p = some .ours := hb2 p (hk _ rfl (by simp))
        rw [hp] at this
        exact Option.some.inj this
    | _ => exact ih

/-- A stranger can be signalled: a child has exited and been waited for, its guard is still there while what it wrote is
being stored, and another process has got its number. -/
theorem kills_stranger : ∃ t, Relation.ReflTransGen Kids.Step (.init fun _ => none) t ∧ (7, .other) ∈ t.signalled :=
  ⟨_, .tail (.tail (.tail (.tail (.tail (.tail .refl (.spawn 7 rfl rfl)) (.guard 7 rfl (by simp)))
    (.reap 7 rfl rfl (by simp))) (.otherStarts 7 rfl)) .fatal) (.kill rfl), by simp⟩

/-- A child can outlive the program without being signalled, though it was started before the failure. -/
theorem leaves_child : ∃ u t, Relation.ReflTransGen Kids.Step (.init fun _ => none) u ∧ u.fatal = .no ∧
    u.procs 7 = some .ours ∧ Relation.ReflTransGen Kids.Step u t ∧ t.fatal = .exited ∧ t.procs 7 = some .ours ∧
    t.signalled = [] :=
  ⟨_, _, .tail .refl (.spawn 7 rfl rfl), rfl, rfl, .tail (.tail (.tail .refl .fatal) .unlock) .exit, rfl, rfl, rfl⟩

/-! ## Cases -/

/-- Three functions on two cores, the second of which ends first. -/
example : ∃ s, Reachable (α := Nat) 3 (fun i o => o = .ok (10 * i)) 2 s ∧ s.main = .returned [10, 0, 20] := by
  refine ⟨_, .tail (.tail (.tail (.tail (.tail (.tail (.tail (.tail (.tail (.tail .refl
    (.spawn (by simp))) (.spawn (by simp)))
    (.ok (a := [.running]) (b := []) (v := 10) rfl))
    (.release (a := [.running]) (b := []) (by simp)))
    (.spawn (by simp)))
    (.ok (a := []) (v := 0) rfl))
    (.release (a := []) (by simp)))
    (.ok (a := [.gone (.ok 0), .gone (.ok 10)]) (b := []) (v := 20) rfl))
    (.release (a := [.gone (.ok 0), .gone (.ok 10)]) (b := []) (by simp)))
    (.join rfl (by simp)), rfl⟩

/-- One of two fails and the program ends, with the other still running. -/
example : ∃ s, Reachable (α := Nat) 2 (fun i o => if i = 0 then o = .err else o = .ok 1) 2 s ∧ s.main = .exited ∧
    s.threads = [.ended .err, .running] := by
  refine ⟨_, .tail (.tail (.tail (.tail .refl (.spawn (by simp))) (.spawn (by simp)))
    (.err (a := []) (b := [.running]) (by simp))) (.fatal (a := [])), rfl, rfl⟩

/-- A child that is running when the program fails is signalled. -/
example : ∃ t, Relation.ReflTransGen (fun u v => Kids.Step u v ∧ Current v) (.init fun _ => none) t ∧
    t.fatal = .exited ∧ t.signalled = [(7, .ours)] :=
  ⟨_, .tail (.tail (.tail (.tail (.tail (.tail .refl
    ⟨.spawn 7 rfl rfl, fun _ h => (by cases h)⟩) ⟨.guard 7 rfl (by simp), by simp [Current, setProc, Kids.init]⟩)
    ⟨.fatal, by simp [Current, setProc, Kids.init]⟩)
    ⟨.kill (p := 7) (o := .ours) rfl, by simp [Current, setProc, Kids.init]⟩)
    ⟨.unlock, by simp [Current, setProc, Kids.init]⟩) ⟨.exit, by simp [Current, setProc, Kids.init]⟩, rfl, rfl⟩

end Backpak.C75
