import Verif.Model.Progress
import Mathlib.Order.Nat
import Mathlib.Order.Lattice

/-!
# C71: Showing progress does not hold up a command, and ends with the final figures

False in that a command whose output nobody reads panics once its work is done: `closed_output_panics`.
-/

namespace Backpak.C71

open Progress

variable {σ : Type} [PartialOrder σ] {rate : Nat} {x : σ} {s t : State σ}

/-! ## What is true all the time -/

/-- What was drawn so far is numbered from zero, and the last of it is no newer than the counters. -/
structure Inv (s : State σ) : Prop where
  nos : s.shown.map Prod.fst = List.range s.shown.length
  cur : match s.thread with
    | .begin _ i | .draw _ i _ => i = s.shown.length
    | .look i _ | .time i _ | .park i _ => i + 1 = s.shown.length
    | .ended _ => True
  le : ∀ e ∈ s.shown, e.2 ≤ s.stats
  flag : s.flag = true ↔ s.main ≠ .working
  final : s.flag = true → ∃ y, s.final = some y ∧ y ≤ s.stats
  last : ∀ i, s.thread = .begin true i → s.flag = true
  lastDraw : ∀ i n, s.thread = .draw true i n → s.flag = true
  token : s.main = .joining → ∀ i n, s.thread = .time i n ∨ s.thread = .park i n → s.token = true
  ok : s.thread = .ended .ok → s.flag = true ∧ ∃ y e, s.final = some y ∧ s.shown.getLast? = some e ∧ y ≤ e.2
  nohurry : s.main = .joined → ∃ r, s.thread = .ended r ∧ r ≠ .panic
  panicked : s.main = .panicked → s.thread = .ended .panic

theorem inv_init : Inv (init x) where
  nos := rfl
  cur := rfl
  le := by simp [init]
  flag := by simp [init]
  final := by simp [init]
  last := by simp [init]
  lastDraw := by simp [init]
  token := by simp [init]
  ok := by simp [init]
  nohurry := by simp [init]
  panicked := by simp [init]

theorem inv_thread (h : Inv s) (hs : ThreadStep rate s t) : Inv t := by
  obtain ⟨h1, h2, h3, h4, h5, h6, h7, h8, h9, h10, h11⟩ := h
  have hrange : ∀ (i : Nat) (y : σ), i = s.shown.length →
      (s.shown ++ [(i, y)]).map Prod.fst = List.range (s.shown ++ [(i, y)]).length := by
    intro i y hi
    rw [List.map_append, h1, List.length_append, List.length_singleton, List.range_succ, hi]; rfl
  have hle : ∀ (i : Nat), ∀ e ∈ s.shown ++ [(i, s.stats)], e.2 ≤ s.stats := by
    intro i e he
    rcases List.mem_append.1 he with he | he
    · exact h3 e he
    · rw [List.mem_singleton.1 he]
  have hnot : ∀ {a}, s.thread = a → (∀ r, a ≠ .ended r) → s.main ≠ .joined ∧ s.main ≠ .panicked := by
    intro a ha hne
    refine ⟨fun hm => ?_, fun hm => ?_⟩
    · obtain ⟨r, hr, _⟩ := h10 hm; exact hne r (ha ▸ hr)
    · exact hne _ (ha ▸ h11 hm)
  cases hs with
  | begin last i ht =>
    have hn := hnot ht (by simp)
    rw [ht] at h2
    refine ⟨h1, h2, h3, h4, h5, by simp, ?_, by simp, by simp, fun hm => absurd hm hn.1, fun hm => absurd hm hn.2⟩
    intro j n hj
    simp only [ThreadAt.draw.injEq] at hj
    exact h6 i (by rw [ht, hj.1])
  | draw i next ht =>
    have hn := hnot ht (by simp)
    rw [ht] at h2
    refine ⟨hrange i _ h2, ?_, hle i, h4, h5, by simp, by simp, by simp, by simp, fun hm => absurd hm hn.1,
      fun hm => absurd hm hn.2⟩
    show i + 1 = (s.shown ++ [(i, s.stats)]).length
    rw [List.length_append, List.length_singleton, ← h2]
  | drawLast i next ht =>
    have hn := hnot ht (by simp)
    rw [ht] at h2
    refine ⟨hrange i _ h2, trivial, hle i, h4, h5, by simp, by simp, by simp, ?_, fun hm => absurd hm hn.1,
      fun hm => absurd hm hn.2⟩
    intro _
    obtain ⟨y, hy, hy2⟩ := h5 (h7 _ _ ht)
    exact ⟨h7 _ _ ht, y, _, hy, List.getLast?_concat, hy2⟩
  | drawErr last i next ht =>
    have hn := hnot ht (by simp)
    exact ⟨h1, trivial, h3, h4, h5, by simp, by simp, by simp, by simp, fun hm => absurd hm hn.1, fun hm => absurd hm hn.2⟩
  | drawPanic last i next ht =>
    have hn := hnot ht (by simp)
    exact ⟨h1, trivial, h3, h4, h5, by simp, by simp, by simp, by simp, fun hm => absurd hm hn.1, fun hm => absurd hm hn.2⟩
  | told i next ht hf =>
    have hn := hnot ht (by simp)
    rw [ht] at h2
    exact ⟨h1, h2, h3, h4, h5, fun _ _ => hf, by simp, by simp, by simp, fun hm => absurd hm hn.1, fun hm => absurd hm hn.2⟩
  | notYet i next ht hf =>
    have hn := hnot ht (by simp)
    rw [ht] at h2
    refine ⟨h1, h2, h3, h4, h5, by simp, by simp, ?_, by simp, fun hm => absurd hm hn.1, fun hm => absurd hm hn.2⟩
    intro hm
    have hm' : s.main = .joining := hm
    have := h4.2 (by rw [hm']; simp)
    rw [hf] at this; cases this
  | due i next ht hc =>
    have hn := hnot ht (by simp)
    rw [ht] at h2
    exact ⟨h1, h2, h3, h4, h5, by simp, by simp, by simp, by simp, fun hm => absurd hm hn.1, fun hm => absurd hm hn.2⟩
  | early i next ht hc =>
    have hn := hnot ht (by simp)
    have h8' : s.main = .joining → s.token = true := fun hm => h8 hm i next (.inl ht)
    rw [ht] at h2
    exact ⟨h1, h2, h3, h4, h5, by simp, by simp, fun hm _ _ _ => h8' hm, by simp, fun hm => absurd hm hn.1,
      fun hm => absurd hm hn.2⟩
  | unparked i next ht htok =>
    have hn := hnot ht (by simp)
    rw [ht] at h2
    exact ⟨h1, h2, h3, h4, h5, by simp, by simp, by simp, by simp, fun hm => absurd hm hn.1, fun hm => absurd hm hn.2⟩
  | woke i next ht =>
    have hn := hnot ht (by simp)
    rw [ht] at h2
    exact ⟨h1, h2, h3, h4, h5, by simp, by simp, by simp, by simp, fun hm => absurd hm hn.1, fun hm => absurd hm hn.2⟩

theorem inv_other (h : Inv s) (hs : OtherStep s t) : Inv t := by
  obtain ⟨h1, h2, h3, h4, h5, h6, h7, h8, h9, h10, h11⟩ := h
  cases hs with
  | tick c hc => exact ⟨h1, h2, h3, h4, h5, h6, h7, h8, h9, h10, h11⟩
  | work y hy =>
    exact ⟨h1, h2, fun e he => le_trans (h3 e he) hy, h4,
      fun hf => let ⟨z, hz, hz2⟩ := h5 hf; ⟨z, hz, le_trans hz2 hy⟩, h6, h7, h8, h9, h10, h11⟩
  | store hm =>
    have hff : s.flag = false := by
      cases hf : s.flag with
      | false => rfl
      | true => exact absurd hm (h4.1 hf)
    refine ⟨h1, h2, h3, by simp, fun _ => ⟨_, rfl, le_refl _⟩, fun _ _ => rfl, fun _ _ _ => rfl, by simp, ?_, by simp,
      by simp⟩
    intro hok
    have := (h9 hok).1
    rw [hff] at this; cases this
  | unpark hm =>
    exact ⟨h1, h2, h3, by simpa [hm] using h4, h5, h6, h7, fun _ _ _ _ => rfl, h9, by simp, by simp⟩
  | join r hm hr hne =>
    exact ⟨h1, h2, h3, by simpa [hm] using h4, h5, h6, h7, by simp, h9, fun _ => ⟨r, hr, hne⟩, by simp⟩
  | joinPanic hm hr =>
    exact ⟨h1, h2, h3, by simpa [hm] using h4, h5, h6, h7, by simp, h9, by simp, fun _ => hr⟩

theorem inv (h : Reachable rate x s) : Inv s := by
  induction h with
  | refl => exact inv_init
  | tail _ hs ih =>
    rcases hs with hs | hs
    · exact inv_thread ih hs
    · exact inv_other ih hs

/-! ## Properties -/

/-- When the thread has been joined, and drawing never failed, the last thing drawn is no older than the end of the
work; if nothing was counted after that, it is the final figures. -/
theorem last_is_final (h : Reachable rate x s) (hj : s.main = .joined) (hok : s.thread ≠ .ended .err) :
    ∃ i y f, s.shown.getLast? = some (i, y) ∧ s.final = some f ∧ f ≤ y ∧ y ≤ s.stats ∧ (s.stats = f → y = f) := by
  have hI := inv h
  obtain ⟨r, hr, hne⟩ := hI.nohurry hj
  have hr' : s.thread = .ended .ok := by
    cases r with
    | ok => exact hr
    | err => exact absurd hr hok
    | panic => exact absurd rfl hne
  obtain ⟨_, f, e, hf, he, hle⟩ := hI.ok hr'
  have h2 := hI.le e (List.mem_of_getLast? he)
  exact ⟨e.1, e.2, f, he, hf, hle, h2, fun hs => le_antisymm (hs ▸ h2) hle⟩

/-- Drawings are numbered from zero: only the first has nothing to clear. -/
theorem numbered (h : Reachable rate x s) : s.shown.map Prod.fst = List.range s.shown.length := (inv h).nos

/-- How many steps the thread may still take once the command waits for it. -/
def rank : ThreadAt → Nat
  | .ended _ => 0
  | .draw true _ _ => 1
  | .begin true _ => 2
  | .look _ _ => 3
  | .park _ _ => 4
  | .draw false _ _ => 4
  | .begin false _ => 5
  | .time _ _ => 6

/-- Once the command waits for it the thread is never stuck: it can take a step, without waiting for time to pass. -/
theorem never_stuck_partial (h : Reachable rate x s) (hj : s.main = .joining) :
    (∃ r, s.thread = .ended r) ∨
      ∃ t, ThreadStep rate s t ∧ (∀ i n, s.thread = .park i n → s.token = true) := by
  have hI := inv h
  have hp : ∀ i n, s.thread = .park i n → s.token = true := fun i n ht => hI.token hj i n (.inr ht)
  cases ht : s.thread with
  | begin last i => exact .inr ⟨_, .begin s last i ht, by rw [← ht]; exact hp⟩
  | draw last i next => exact .inr ⟨_, .drawErr s last i next ht, by rw [← ht]; exact hp⟩
  | look i next =>
    have hf : s.flag = true := hI.flag.2 (by rw [hj]; simp)
    exact .inr ⟨_, .told s i next ht hf, by rw [← ht]; exact hp⟩
  | time i next =>
    rcases Nat.lt_or_ge s.clock next with hc | hc
    · exact .inr ⟨_, .early s i next ht hc, by rw [← ht]; exact hp⟩
    · exact .inr ⟨_, .due s i next ht hc, by rw [← ht]; exact hp⟩
  | park i next => exact .inr ⟨_, .unparked s i next ht (hp i next ht), by rw [← ht]; exact hp⟩
  | ended r => exact .inl ⟨r, rfl⟩

/-- And each step brings it nearer to its end. -/
theorem steps_count (h : Reachable rate x s) (hj : s.main = .joining) (hs : ThreadStep rate s t) :
    rank t.thread < rank s.thread := by
  have hI := inv h
  have hf : s.flag = true := hI.flag.2 (by rw [hj]; simp)
  cases hs with
  | begin last i ht => rw [ht]; cases last <;> simp [rank]
  | draw i next ht => rw [ht]; simp [rank]
  | drawLast i next ht => rw [ht]; simp [rank]
  | drawErr last i next ht => rw [ht]; cases last <;> simp [rank]
  | drawPanic last i next ht => rw [ht]; cases last <;> simp [rank]
  | told i next ht => rw [ht]; simp [rank]
  | notYet i next ht hff => rw [hf] at hff; cases hff
  | due i next ht => rw [ht]; simp [rank]
  | early i next ht => rw [ht]; simp [rank]
  | unparked i next ht => rw [ht]; simp [rank]
  | woke i next ht => rw [ht]; simp [rank]

theorem other_keeps (hs : OtherStep s t) : t.thread = s.thread := by cases hs <;> rfl

/-- Steps, with how many of them are the thread's. -/
inductive Run (rate : Nat) : State σ → Nat → State σ → Prop
  | refl (a : State σ) : Run rate a 0 a
  | thread {a b c : State σ} {n : Nat} : Run rate a n b → ThreadStep rate b c → Run rate a (n + 1) c
  | other {a b c : State σ} {n : Nat} : Run rate a n b → OtherStep b c → Run rate a n c

/-- A command that has told the thread to end waits for at most six of its steps, whatever else happens and however
little time passes. -/
theorem waits_little (h : Reachable rate x s) (hj : s.main = .joining) {n : Nat} (hr : Run rate s n t)
    (hw : t.main = .joining) : n + rank t.thread ≤ rank s.thread ∧ n ≤ 6 := by
  have key : ∀ {n t}, Run rate s n t → Relation.ReflTransGen (Step rate) s t ∧
      (t.main = .joining → n + rank t.thread ≤ rank s.thread) := by
    intro n t hr
    induction hr with
    | refl => exact ⟨.refl, fun _ => by simp⟩
    | @thread t u n _ hs ih =>
      refine ⟨ih.1.tail (.inl hs), fun hu => ?_⟩
      have ht : t.main = .joining := by
        have : u.main = t.main := by cases hs <;> rfl
        rw [← this]; exact hu
      have h1 := ih.2 ht
      have h2 := steps_count (h.trans ih.1) ht hs
      omega
    | @other t u n hr hs ih =>
      refine ⟨ih.1.tail (.inr hs), fun hu => ?_⟩
      rw [other_keeps hs]
      refine ih.2 ?_
      have hback : ∀ {a b : State σ}, Relation.ReflTransGen (Step rate) a b → a.main = .joining →
          b.main = .joining ∨ b.main = .joined ∨ b.main = .panicked := by
        intro a b hab ha
        induction hab with
        | refl => exact .inl ha
        | tail _ hs ih =>
          rcases hs with hs | hs
          · have e : ∀ {a b : State σ}, ThreadStep rate a b → b.main = a.main := by intro a b h; cases h <;> rfl
            rw [e hs]; exact ih
          · cases hs with
            | tick | work => exact ih
            | store hm | unpark hm => rw [hm] at ih; simp at ih
            | join => simp
            | joinPanic => simp
      rcases hback ih.1 hj with h1 | h1 | h1
      · exact h1
      · cases hs <;> simp_all
      · cases hs <;> simp_all
  have h1 := (key hr).2 hw
  refine ⟨h1, ?_⟩
  have : rank s.thread ≤ 6 := by
    cases s.thread with
    | begin l _ => cases l <;> simp [rank]
    | draw l _ _ => cases l <;> simp [rank]
    | _ => simp [rank]
  omega

/-- When the thread has ended the command goes on; it fails only if drawing panicked. -/
theorem then_goes_on {r : Drew} (hj : s.main = .joining) (ht : s.thread = .ended r) :
    ∃ t, OtherStep s t ∧ t.stats = s.stats ∧ (t.main = .joined ∧ r ≠ .panic ∨ t.main = .panicked ∧ r = .panic) := by
  by_cases hr : r = .panic
  · subst hr; exact ⟨_, .joinPanic s hj ht, rfl, .inr ⟨rfl, rfl⟩⟩
  · exact ⟨_, .join s r hj ht hr, rfl, .inl ⟨rfl, hr⟩⟩

/-- An error in drawing is no error of the command. -/
theorem errors_do_no_harm (h : Reachable rate x s) (hp : s.thread = .ended .err) : s.main ≠ .panicked := by
  intro hm
  have := (inv h).panicked hm
  rw [hp] at this; cases this

/-- What is missing: output that nobody reads makes `println!` panic. The command works to the end and then, before
it stores its snapshot (`src/ui/backup.rs:209-211,276-278`), panics too. For any work. -/
theorem closed_output_panics (rate : Nat) (x y : σ) (hxy : x ≤ y) :
    ∃ s, Reachable rate x s ∧ s.stats = y ∧ s.final = some y ∧ s.main = .panicked := by
  let s1 : State σ := { init x with thread := .draw false 0 (0 + rate) }
  let s2 : State σ := { s1 with thread := .ended .panic }
  let s3 : State σ := { s2 with stats := y }
  let s4 : State σ := { s3 with main := .flagged, flag := true, final := some y }
  let s5 : State σ := { s4 with main := .joining, token := true }
  let s6 : State σ := { s5 with main := .panicked }
  refine ⟨s6, ?_, rfl, rfl, rfl⟩
  have h1 : Step rate (init x) s1 := .inl (.begin _ false 0 rfl)
  have h2 : Step rate s1 s2 := .inl (.drawPanic s1 false 0 _ rfl)
  have h3 : Step rate s2 s3 := .inr (.work s2 y hxy)
  have h4 : Step rate s3 s4 := .inr (.store s3 rfl)
  have h5 : Step rate s4 s5 := .inr (.unpark s4 rfl)
  have h6 : Step rate s5 s6 := .inr (.joinPanic s5 rfl rfl)
  exact ((((((Relation.ReflTransGen.refl).tail h1).tail h2).tail h3).tail h4).tail h5).tail h6

/-! ## Example -/

/-- The thread has drawn once and is parked; the work ends meanwhile; it is woken, draws the final figures and ends. -/
example : ∃ s, Reachable 100 (0 : Nat) s ∧ s.main = .joined ∧ s.shown = [(0, 0), (1, 7)] ∧ s.clock = 0 := by
  let s1 : State Nat := { init 0 with thread := .draw false 0 (0 + 100) }
  let s2 : State Nat := { s1 with thread := .look 0 (0 + 100), shown := s1.shown ++ [(0, s1.stats)] }
  let s3 : State Nat := { s2 with thread := .time 0 (0 + 100) }
  let s4 : State Nat := { s3 with stats := 7 }
  let s5 : State Nat := { s4 with main := .flagged, flag := true, final := some s4.stats }
  let s6 : State Nat := { s5 with main := .joining, token := true }
  let s7 : State Nat := { s6 with thread := .park 0 (0 + 100) }
  let s8 : State Nat := { s7 with thread := .look 0 (0 + 100), token := false }
  let s9 : State Nat := { s8 with thread := .begin true (0 + 1) }
  let s10 : State Nat := { s9 with thread := .draw true (0 + 1) (s9.clock + 100) }
  let s11 : State Nat := { s10 with thread := .ended .ok, shown := s10.shown ++ [(0 + 1, s10.stats)] }
  let s12 : State Nat := { s11 with main := .joined }
  refine ⟨s12, ?_, rfl, rfl, rfl⟩
  have h1 : Step 100 (init 0) s1 := .inl (.begin _ false 0 rfl)
  have h2 : Step 100 s1 s2 := .inl (.draw s1 0 _ rfl)
  have h3 : Step 100 s2 s3 := .inl (.notYet s2 0 _ rfl rfl)
  have h4 : Step 100 s3 s4 := .inr (.work s3 7 (by decide))
  have h5 : Step 100 s4 s5 := .inr (.store s4 rfl)
  have h6 : Step 100 s5 s6 := .inr (.unpark s5 rfl)
  have h7 : Step 100 s6 s7 := .inl (.early s6 0 _ rfl (by decide))
  have h8 : Step 100 s7 s8 := .inl (.unparked s7 0 _ rfl rfl)
  have h9 : Step 100 s8 s9 := .inl (.told s8 0 _ rfl rfl)
  have h10 : Step 100 s9 s10 := .inl (.begin s9 true _ rfl)
  have h11 : Step 100 s10 s11 := .inl (.drawLast s10 _ _ rfl)
  have h12 : Step 100 s11 s12 := .inr (.join s11 .ok rfl rfl (by decide))
  exact ((((((((((((Relation.ReflTransGen.refl).tail h1).tail h2).tail h3).tail h4).tail h5).tail h6).tail h7).tail
    h8).tail h9).tail h10).tail h11).tail h12

end Backpak.C71
