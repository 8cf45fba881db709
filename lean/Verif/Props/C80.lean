import Verif.Lemmas.SemaphoredRun
import Verif.Props.C49
import Mathlib.Data.Fintype.Card

/-!
# C80 - No more connections to B2 at once than configured
-/

namespace Backpak.C80

open Semaphored

variable {T : Type} [DecidableEq T]

/-- Something is under way between the thread and B2: it has asked and waits for the answer, or still reads it. -/
def Connected (s : State T) (t : T) : Prop := (∃ c, s.doing t = .requesting c) ∨ s.doing t = .downloading

/-- At most `n` threads are such that. -/
def AtMost (n : Nat) (p : T → Prop) : Prop := ∀ ts : List T, ts.Nodup → (∀ t ∈ ts, p t) → ts.length ≤ n

/-- The claim: never more connections than configured. -/
def Claim (T : Type) [DecidableEq T] (n : Nat) : Prop := ∀ s : State T, Reachable n s → AtMost n (Connected s)

/-- What holds all the time: the semaphore does what it can do by itself; the guards are those of the threads that have
requested; and only threads that ask for a guard are in the semaphore. -/
structure Inv (n : Nat) (s : State T) : Prop where
  sem : Semaphore.Reachable n s.sem
  held : ∃ ts : List T, ts.Nodup ∧ (∀ t, t ∈ ts ↔ ∃ c, s.doing t = .requesting c) ∧ ts.length = s.sem.held
  out : ∀ t, s.sem.pc t ≠ .out ↔ ∃ c, s.doing t = .asking c

theorem dropped_step {s : Semaphore.State T} (h : s.held ≠ 0) : Semaphore.Step s (dropped s) := by
  unfold dropped
  split
  · exact .post _ h ‹_›
  · exact .drop _ h ‹_›

omit [DecidableEq T] in
theorem dropped_held (s : Semaphore.State T) : (dropped s).held = s.held - 1 := by
  unfold dropped; split <;> rfl

omit [DecidableEq T] in
theorem dropped_pc (s : Semaphore.State T) : (dropped s).pc = s.pc := by
  unfold dropped; split <;> rfl

/-- A request ends. -/
theorem ended_inv {n : Nat} {s : State T} {t : T} {c : Call} {d : Doing} (hi : Inv n s) (h : s.doing t = .requesting c)
    (hr : ∀ c, d ≠ .requesting c) (ha : ∀ c, d ≠ .asking c) : Inv n (s.now (dropped s.sem) t d) := by
  obtain ⟨ts, g1, g2, g3⟩ := hi.held
  have hm : t ∈ ts := (g2 t).mpr ⟨c, h⟩
  have h0 : s.sem.held ≠ 0 := by
    have := List.length_pos_of_mem hm
    omega
  refine ⟨hi.sem.tail (dropped_step h0), ⟨ts.erase t, g1.erase t, ?_, ?_⟩, ?_⟩
  · intro u
    rw [g1.mem_erase_iff, g2 u]
    by_cases e : u = t
    · subst e; simp [State.now, hr]
    · simp [State.now, e]
  · rw [List.length_erase_of_mem hm, g3]
    exact (dropped_held _).symm
  · intro u
    show (dropped s.sem).pc u ≠ .out ↔ _
    rw [dropped_pc, hi.out u]
    by_cases e : u = t
    · subst e; simp [State.now, ha, h]
    · simp [State.now, Function.update_of_ne e]

theorem step_inv {n : Nat} {s s' : State T} (hi : Inv n s) (hs : Step s s') : Inv n s' := by
  obtain ⟨ts, g1, g2, g3⟩ := hi.held
  cases hs with
  | call t c h ho =>
    refine ⟨hi.sem.tail (.enter _ _ ho), ⟨ts, g1, ?_, g3⟩, ?_⟩
    · intro u
      rw [g2 u]
      by_cases e : u = t
      · subst e; simp [State.now, h]
      · simp [State.now, Function.update_of_ne e]
    · intro u
      by_cases e : u = t
      · subst e; simp [State.now, Semaphore.at_]
      · simp only [State.now, Semaphore.at_, Function.update_of_ne e]
        exact hi.out u
  | waiting sem h hh ho =>
    refine ⟨hi.sem.tail h, ⟨ts, g1, g2, g3.trans hh.symm⟩, ?_⟩
    intro u
    rw [ne_eq, ho u]
    exact hi.out u
  | request t c h ht =>
    refine ⟨hi.sem.tail (.take _ _ ht), ⟨t :: ts, ?_, ?_, ?_⟩, ?_⟩
    · refine List.nodup_cons.mpr ⟨?_, g1⟩
      rw [g2 t, h]
      rintro ⟨_, e⟩
      cases e
    · intro u
      by_cases e : u = t
      · subst e; simp [State.now]
      · simp [State.now, e, g2 u]
    · simp [State.now, g3]
    · intro u
      by_cases e : u = t
      · subst e; simp [State.now, Semaphore.at_]
      · simp only [State.now, Semaphore.at_, Function.update_of_ne e]
        exact hi.out u
  | again t c h => exact hi
  | finish t c h =>
    refine ended_inv hi h ?_ ?_
    all_goals intro c'; split <;> simp
  | fail t c h => exact ended_inv hi h (by simp) (by simp)
  | close t h =>
    refine ⟨hi.sem, ⟨ts, g1, ?_, g3⟩, ?_⟩
    · intro u
      rw [g2 u]
      by_cases e : u = t
      · subst e; simp [State.now, h]
      · simp [State.now, Function.update_of_ne e]
    · intro u
      show s.sem.pc u ≠ .out ↔ _
      rw [hi.out u]
      by_cases e : u = t
      · subst e; simp [State.now, h]
      · simp [State.now, Function.update_of_ne e]

theorem inv {n : Nat} {s : State T} (h : Reachable n s) : Inv n s := by
  unfold Reachable at h
  induction h with
  | refl => exact ⟨.refl, ⟨[], List.nodup_nil, by simp [init], rfl⟩, by simp [init, Semaphore.init]⟩
  | tail _ hs ih => exact step_inv ih hs

theorem inv_atMost {n : Nat} {s : State T} (h : Reachable n s) : AtMost n (fun t => ∃ c, s.doing t = .requesting c) := by
  obtain ⟨ts, g1, g2, g3⟩ := (inv h).held
  have hl := (C48.limited (inv h).sem).1
  intro us hu hr
  have := (List.subperm_of_subset hu (fun u m => (g2 u).mpr (hr u m))).length_le
  omega

/-- What is true of the claim: however many threads there are and whatever they do, however often requests fail and
are made again, at most `n` threads are waiting for an answer of B2. -/
theorem requests_limited_partial {n : Nat} {s : State T} (h : Reachable n s) :
    AtMost n (fun t => ∃ c, s.doing t = .requesting c) := inv_atMost h

/-- Threads can each open a download when the one before has: the guard is free again. -/
theorem all_download {n : Nat} (hn : 0 < n) (ts : List T) (hd : ts.Nodup) :
    ∃ s : State T, Reachable n s ∧ (∀ t ∈ ts, s.doing t = .downloading) ∧ (∀ t ∉ ts, s.doing t = .idle) ∧
      s.sem.count = n ∧ s.sem.held = 0 ∧ ∀ t, s.sem.pc t = .out := by
  induction ts with
  | nil => exact ⟨init T n, .refl, by simp, by simp [init], rfl, rfl, fun _ => rfl⟩
  | cons t ts ih =>
    obtain ⟨hm, hd⟩ := List.nodup_cons.mp hd
    obtain ⟨s, h1, h2, h3, h4, h5, h6⟩ := ih hd
    have r1 := h1.tail (.call s t .read (h3 t hm) (h6 t))
    generalize hs1 : s.now (Semaphore.at_ s.sem t (.trying 1)) t (.asking .read) = s1 at r1
    -- the first exchange expects one
    have r2 : ∃ s2 : State T, Reachable n s2 ∧ s2.doing = s1.doing ∧ s2.sem.pc t = .trying s2.sem.count ∧
        s2.sem.count = n ∧ s2.sem.held = 0 ∧ ∀ u, u ≠ t → s2.sem.pc u = .out := by
      by_cases e : n = 1
      · refine ⟨s1, r1, rfl, ?_⟩
        subst hs1
        simp only [State.now, Semaphore.at_, h4, h5, Function.update_self, e]
        exact ⟨trivial, trivial, trivial, fun u hu => by rw [Function.update_of_ne hu]; exact h6 u⟩
      · refine ⟨⟨Semaphore.at_ s1.sem t (.trying s1.sem.count), s1.doing⟩, r1.tail (.waiting _ _ (.retry _ _ 1 ?_ ?_) rfl ?_),
          rfl, ?_⟩
        · subst hs1; simp [State.now, Semaphore.at_]
        · subst hs1; simp [State.now, Semaphore.at_, h4]; omega
        · intro u
          by_cases e : u = t
          · subst e; subst hs1; simp [Semaphore.at_, State.now]
          · simp [Semaphore.at_, Function.update_of_ne e]
        · subst hs1
          simp only [State.now, Semaphore.at_, h4, h5, Function.update_self]
          exact ⟨trivial, trivial, trivial, fun u hu => by
            rw [Function.update_of_ne hu, Function.update_of_ne hu]; exact h6 u⟩
    obtain ⟨s2, r2, d2, p2, c2, l2, o2⟩ := r2
    have r3 := r2.tail (.request s2 t .read (by rw [d2, ← hs1]; simp [State.now]) p2)
    have r4 := r3.tail (.finish _ t .read (by simp [State.now]))
    refine ⟨_, r4, ?_, ?_, ?_, ?_, ?_⟩
    · intro u hu
      by_cases e : u = t
      · subst e; simp [State.now]
      · have : u ∈ ts := by simpa [e] using hu
        simp [State.now, Function.update_of_ne e, d2, ← hs1, h2 u this]
    · intro u hu
      have e : u ≠ t := fun e => hu (by simp [e])
      have : u ∉ ts := fun m => hu (by simp [m])
      simp [State.now, Function.update_of_ne e, d2, ← hs1, h3 u this]
    · have hc : ∀ s : Semaphore.State T, (dropped s).count = s.count + 1 := by intro s; unfold dropped; split <;> rfl
      simp only [State.now, hc, Semaphore.at_, c2]
      omega
    · simp only [State.now, dropped_held, Semaphore.at_, l2]
    · intro u
      simp only [State.now, dropped_pc, Semaphore.at_]
      by_cases e : u = t
      · subst e; simp
      · rw [Function.update_of_ne e]; exact o2 u e

/-- The claim is false as soon as there are more threads than connections: for `read` gives back its guard when it
returns the stream, so all threads of `check --read-packs`, say, download at once. -/
theorem downloads_unlimited {n : Nat} (hn : 0 < n) (ts : List T) (hd : ts.Nodup) :
    ∃ s : State T, Reachable n s ∧ (∀ t ∈ ts, s.doing t = .downloading) ∧ s.sem.count = n := by
  obtain ⟨s, h1, h2, _, h4, _⟩ := all_download hn ts hd
  exact ⟨s, h1, h2, h4⟩

/-- If `concurrent_connections` is zero, which nothing rejects, no request is ever made: every call waits for ever. -/
theorem zero_waits {s : State T} (h : Reachable 0 s) : ∀ t, s.doing t = .idle ∨ ∃ c, s.doing t = .asking c := by
  have hc : ∀ {s : State T}, Reachable 0 s → ∀ t, (∃ c, s.doing t = .requesting c) → False := by
    intro s h t ht
    have := inv_atMost h [t] (List.nodup_singleton t) (by simpa using ht)
    simp at this
  unfold Reachable at h
  induction h with
  | refl => exact fun _ => .inl rfl
  | @tail s s' hr hs ih =>
    have hc' := hc (hr.tail hs)
    cases hs with
    | call t c _ _ =>
      intro u
      by_cases e : u = t
      · subst e; right; exact ⟨c, by simp [State.now]⟩
      · simp only [State.now, Function.update_of_ne e]; exact ih u
    | waiting sem _ _ _ => exact ih
    | request t c _ _ => exact (hc' t ⟨c, by simp [State.now]⟩).elim
    | again t c _ => exact ih
    | finish t c h => exact (hc hr t ⟨c, h⟩).elim
    | fail t c h => exact (hc hr t ⟨c, h⟩).elim
    | close t _ =>
      intro u
      by_cases e : u = t
      · subst e; left; simp [State.now]
      · simp only [State.now, Function.update_of_ne e]; exact ih u

/-- So the claim holds just when there are no connections to be had, or not more threads than connections. -/
theorem claim_iff [Fintype T] {n : Nat} : Claim T n ↔ n = 0 ∨ Fintype.card T ≤ n := by
  constructor
  · intro h
    rcases Nat.eq_zero_or_pos n with e | e
    · exact .inl e
    obtain ⟨s, h1, h2, _⟩ := downloads_unlimited e (T := T) Finset.univ.toList (Finset.nodup_toList _)
    have := h s h1 Finset.univ.toList (Finset.nodup_toList _) (fun t m => .inr (h2 t (by simp)))
    rw [Finset.length_toList] at this
    exact .inr this
  · rintro (h | h)
    · subst h
      intro s hr ts hd hc
      cases ts with
      | nil => exact Nat.le_refl _
      | cons t ts =>
        rcases zero_waits hr t with e | ⟨c, e⟩ <;> rcases hc t (by simp) with ⟨_, e'⟩ | e' <;> rw [e] at e' <;> cases e'
    · intro s _ ts hd _
      exact hd.length_le_card.trans h

/-- With as many connections as threads nobody ever waits: whoever asks finds a guard free. -/
theorem enough {n : Nat} [Fintype T] (hn : Fintype.card T ≤ n) {s : State T} (h : Reachable n s) (t : T) :
    s.sem.pc t ≠ .drowsy ∧ s.sem.pc t ≠ .asleep := by
  -- whoever is in the semaphore leaves a guard for itself
  have free : ∀ {s : State T}, Reachable n s → ∀ t, s.sem.pc t ≠ .out → s.sem.count ≠ 0 := by
    intro s h t ht h0
    have hi := inv h
    obtain ⟨c, hc⟩ := (hi.out t).mp ht
    obtain ⟨ts, g1, g2, g3⟩ := hi.held
    have hm : t ∉ ts := by
      rw [g2 t, hc]
      rintro ⟨_, e⟩
      cases e
    have := (List.nodup_cons.mpr ⟨hm, g1⟩).length_le_card
    have := (C48.inv hi.sem).total
    simp only [List.length_cons] at *
    omega
  unfold Reachable at h
  induction h generalizing t with
  | refl => simp [init, Semaphore.init]
  | @tail s s' hr hs ih =>
    have hp : ∀ {u : T} {p : Semaphore.Pc}, (p ≠ .drowsy ∧ p ≠ .asleep) → ∀ t, Function.update s.sem.pc u p t ≠ .drowsy ∧
        Function.update s.sem.pc u p t ≠ .asleep := by
      intro u p hp t
      by_cases e : t = u
      · subst e; simpa using hp
      · rw [Function.update_of_ne e]; exact ih t
    cases hs with
    | call u c _ _ => exact hp (by simp) t
    | waiting sem hs _ _ =>
      cases hs with
      | enter u _ => exact hp (by simp) t
      | take u _ => exact hp (by simp) t
      | empty u prev hu h0 => exact (free hr u (by rw [hu]; simp) h0).elim
      | retry u prev _ _ => exact hp (by simp) t
      | sleep u hu h0 => exact ((ih u).1 hu).elim
      | stay u _ _ => exact hp (by simp) t
      | stir u _ => exact hp (by simp) t
      | post _ _ => exact ih t
      | drop _ _ => exact ih t
      | wake u _ _ => exact hp (by simp) t
      | wakeNone _ _ => exact ih t
    | request u c _ _ => exact hp (by simp) t
    | again u c _ => exact ih t
    | finish u c _ => show (dropped s.sem).pc t ≠ _ ∧ (dropped s.sem).pc t ≠ _; rw [dropped_pc]; exact ih t
    | fail u c _ => show (dropped s.sem).pc t ≠ _ ∧ (dropped s.sem).pc t ≠ _; rw [dropped_pc]; exact ih t
    | close u _ => exact ih t

/-- With one connection a thread does not wait in vain: if it sleeps, a request is being made, or somebody is about to
wake a thread or to make one. -/
theorem one_connection {s : State T} (h : Reachable 1 s) (t : T) (ht : s.sem.pc t = .asleep) :
    (∃ u c, s.doing u = .requesting c) ∨ s.sem.wakers ≠ 0 ∨ ∃ u c, s.doing u = .asking c ∧ s.sem.pc u ≠ .asleep := by
  have hi := inv h
  by_cases h0 : s.sem.count = 0
  · left
    have := (C48.inv hi.sem).total
    obtain ⟨ts, g1, g2, g3⟩ := hi.held
    obtain ⟨u, hu⟩ := List.exists_mem_of_length_pos (l := ts) (by omega)
    obtain ⟨c, hc⟩ := (g2 u).mp hu
    exact ⟨u, c, hc⟩
  · rcases C49.one_slot_partial hi.sem h0 t ht with h | ⟨u, h1, h2⟩
    · exact .inr (.inl h)
    · obtain ⟨c, hc⟩ := (hi.out u).mp h1
      exact .inr (.inr ⟨u, c, hc, h2⟩)

/-- Four threads list and two connections: two requests are under way, two threads sleep; the requests end close
together, and one thread is woken for both. -/
def lost : State (Fin 4) :=
  stateAfter 2 [.call 0 .list, .waiting (.exchange 0), .request 0, .call 1 .list, .request 1, .call 2 .list,
    .waiting (.exchange 2), .waiting (.wait 2), .call 3 .list, .waiting (.exchange 3), .waiting (.wait 3), .finish 0,
    .finish 1, .waiting (.wake 2), .waiting (.exchange 2), .request 2, .finish 2]

/-- With two it can wait in vain: all else is done and both connections are free, but a thread sleeps, nobody is about
to wake it, and so the command never ends. -/
theorem left_asleep : Reachable 2 lost ∧ lost.doing 3 = .asking .list ∧ lost.sem.pc 3 = .asleep ∧ lost.sem.count = 2 ∧
    lost.sem.wakers = 0 ∧ ∀ t, t ≠ 3 → lost.doing t = .idle :=
  ⟨stateAfter_reachable _ _, by decide, by decide, by decide, by decide, by decide⟩

/-- Two connections, three threads: two requests, and the third waits for them. -/
example : ∃ s : State (Fin 3), Reachable 2 s ∧ s.doing 0 = .requesting .read ∧ s.doing 1 = .requesting .write ∧
    s.doing 2 = .asking .read ∧ s.sem.pc 2 = .asleep :=
  ⟨stateAfter 2 [.call 0 .read, .waiting (.exchange 0), .request 0, .call 1 .write, .request 1, .call 2 .read,
    .waiting (.exchange 2), .waiting (.wait 2)], stateAfter_reachable _ _, by decide, by decide, by decide, by decide⟩

/-- One connection, three downloads. -/
example : ∃ s : State (Fin 3), Reachable 1 s ∧ s.doing 0 = .downloading ∧ s.doing 1 = .downloading ∧
    s.doing 2 = .downloading := by
  obtain ⟨s, h1, h2, _⟩ := downloads_unlimited (n := 1) (by decide) [(0 : Fin 3), 1, 2] (by decide)
  exact ⟨s, h1, h2 0 (by decide), h2 1 (by decide), h2 2 (by decide)⟩

/-- No connection and a thread that waits for one. -/
example : ∃ s : State (Fin 1), Reachable 0 s ∧ s.doing 0 = .asking .list ∧ s.sem.pc 0 = .asleep :=
  ⟨stateAfter 0 [.call 0 .list, .waiting (.exchange 0), .waiting (.wait 0)], stateAfter_reachable _ _, by decide, by decide⟩

/-- One connection; a thread sleeps while another's request is under way. -/
example : ∃ s : State (Fin 2), Reachable 1 s ∧ s.sem.pc 1 = .asleep ∧ s.doing 0 = .requesting .remove :=
  ⟨stateAfter 1 [.call 0 .remove, .request 0, .call 1 .write, .waiting (.exchange 1), .waiting (.wait 1)],
    stateAfter_reachable _ _, by decide, by decide⟩

/-- As many connections as threads. -/
example : ∃ s : State (Fin 2), Reachable 2 s ∧ Fintype.card (Fin 2) ≤ 2 ∧ s.doing 0 = .requesting .list ∧
    s.doing 1 = .asking .list :=
  ⟨stateAfter 2 [.call 0 .list, .waiting (.exchange 0), .request 0, .call 1 .list], stateAfter_reachable _ _, by decide,
    by decide, by decide⟩

end Backpak.C80
