import Verif.Model.Packer

/-!
# C09 - Packs stop growing once they reach the target size

The two specifications below read the packer's events (blobs written, sizes measured, packs
ended) without looking at the packer's variables.
-/

namespace Backpak.C09

open Packer

variable {Id : Type}

/-- Nothing is written to a pack after a measurement of it reached the target. `hot` says
whether one already has. -/
def Cool (target : Nat) : Bool → List (Event Id) → Prop
  | _, [] => True
  | hot, .wrote _ :: l => hot = false ∧ Cool target hot l
  | hot, .sized n :: l => Cool target (hot || decide (target ≤ n)) l
  | hot, .flushed n :: l => Cool target (hot || decide (target ≤ n)) l
  | _, .ended :: l => Cool target false l

/-- After each flush the packer has a budget of bytes: the target for a new pack, afterwards
the estimate from the bytes in the pack and the size just measured. Nothing is written once
the bytes since the flush have used up the budget. -/
def WithinBudget (target : Nat) (est : Nat → Nat → Nat → Nat) :
    (inPack since budget : Nat) → List (Event Id) → Prop
  | _, _, _, [] => True
  | inPack, since, budget, .wrote b :: l =>
    (since = 0 ∨ since < budget) ∧
      WithinBudget target est (inPack + b.data.length) (since + b.data.length) budget l
  | inPack, since, budget, .sized _ :: l => WithinBudget target est inPack since budget l
  | inPack, _, _, .flushed n :: l => WithinBudget target est inPack 0 (est inPack n target) l
  | _, _, _, .ended :: l => WithinBudget target est 0 0 target l

theorem run_cool (target : Nat) (est : Nat → Nat → Nat → Nat) (l : List (Step Id)) :
    ∀ (st : State Id) (evs : List (Event Id)), run target est st l = .ok evs →
      Cool target false evs := by
  induction l with
  | nil =>
    intro st evs h
    simp only [run, Except.ok.injEq] at h
    subst h
    split <;> simp [Cool]
  | cons s l ih =>
    intro st evs h
    simp only [run] at h
    split at h
    · simp at h
    · rename_i st' ev hiter
      split at h
      · simp at h
      · rename_i evs' hrun
        simp only [Except.ok.injEq] at h
        subst h
        have hc := ih st' evs' hrun
        unfold iter at hiter
        split at hiter
        · simp at hiter
        · simp only at hiter
          split at hiter
          · simp only [Except.ok.injEq, Prod.mk.injEq] at hiter
            obtain ⟨rfl, rfl⟩ := hiter
            simpa [Cool] using hc
          · rename_i hsz
            split at hiter
            · split at hiter
              · simp only [Except.ok.injEq, Prod.mk.injEq] at hiter
                obtain ⟨rfl, rfl⟩ := hiter
                simpa [Cool] using hc
              · rename_i hfl
                simp only [Except.ok.injEq, Prod.mk.injEq] at hiter
                obtain ⟨rfl, rfl⟩ := hiter
                simp only [List.cons_append, List.nil_append, Cool, decide_eq_false hsz,
                  decide_eq_false hfl, Bool.or_self, true_and]
                exact hc
            · simp only [Except.ok.injEq, Prod.mk.injEq] at hiter
              obtain ⟨rfl, rfl⟩ := hiter
              simp only [List.cons_append, List.nil_append, Cool, decide_eq_false hsz,
                Bool.or_self, true_and]
              exact hc

/-- The packer never adds a blob to a pack one of whose measured sizes has reached the target. -/
theorem never_writes_past_target (target : Nat) (est : Nat → Nat → Nat → Nat) (l : List (Step Id))
    (evs : List (Event Id)) (h : run target est (init target) l = .ok evs) :
    Cool target false evs :=
  run_cool target est l _ evs h

theorem run_budget (target : Nat) (est : Nat → Nat → Nat → Nat) (l : List (Step Id)) :
    ∀ (st : State Id) (evs : List (Event Id)), (st.pass = 0 ∨ st.pass < st.next) →
      run target est st l = .ok evs → WithinBudget target est st.inPack st.pass st.next evs := by
  induction l with
  | nil =>
    intro st evs _ h
    simp only [run, Except.ok.injEq] at h
    subst h
    split <;> simp [WithinBudget]
  | cons s l ih =>
    intro st evs hst h
    simp only [run] at h
    split at h
    · simp at h
    · rename_i st' ev hiter
      split at h
      · simp at h
      · rename_i evs' hrun
        simp only [Except.ok.injEq] at h
        subst h
        unfold iter at hiter
        split at hiter
        · simp at hiter
        · simp only at hiter
          split at hiter
          · simp only [Except.ok.injEq, Prod.mk.injEq] at hiter
            obtain ⟨rfl, rfl⟩ := hiter
            simp only [List.cons_append, List.nil_append, WithinBudget]
            exact ⟨hst, ih _ evs' (by simp [init]) hrun⟩
          · split at hiter
            · split at hiter
              · simp only [Except.ok.injEq, Prod.mk.injEq] at hiter
                obtain ⟨rfl, rfl⟩ := hiter
                simp only [List.cons_append, List.nil_append, WithinBudget]
                exact ⟨hst, ih _ evs' (by simp [init]) hrun⟩
              · simp only [Except.ok.injEq, Prod.mk.injEq] at hiter
                obtain ⟨rfl, rfl⟩ := hiter
                simp only [List.cons_append, List.nil_append, WithinBudget]
                exact ⟨hst, ih _ evs' (by simp) hrun⟩
            · rename_i hp
              simp only [Except.ok.injEq, Prod.mk.injEq] at hiter
              obtain ⟨rfl, rfl⟩ := hiter
              simp only [List.cons_append, List.nil_append, WithinBudget]
              refine ⟨hst, ih _ evs' ?_ hrun⟩
              right
              exact Nat.lt_of_not_le hp

/-- Between two flushes the packer stops writing as soon as the budget is used up. -/
theorem writes_within_budget (target : Nat) (est : Nat → Nat → Nat → Nat) (l : List (Step Id))
    (evs : List (Event Id)) (h : run target est (init target) l = .ok evs) :
    WithinBudget target est 0 0 target evs :=
  run_budget target est l (init target) evs (by simp [init]) h

/-- Bytes of some blobs. -/
def total (bs : List (Blob Id)) : Nat := (bs.map fun b => b.data.length).sum

/-- Measurements after a flush are at least the bytes written to the pack so far: the data
does not compress. -/
def Incompressible : Nat → List (Event Id) → Prop
  | _, [] => True
  | n, .wrote b :: l => Incompressible (n + b.data.length) l
  | n, .sized _ :: l => Incompressible n l
  | n, .flushed m :: l => n ≤ m ∧ Incompressible n l
  | _, .ended :: l => Incompressible 0 l

theorem run_incompressible (target : Nat) (est : Nat → Nat → Nat → Nat) (l : List (Step Id)) :
    ∀ (st : State Id) (evs : List (Event Id)), st.next = target → st.pass = total st.cur →
      st.inPack = total st.cur → (st.cur = [] ∨ st.pass < target) →
      run target est st l = .ok evs → Incompressible st.inPack evs →
      ∀ p ∈ packs st.cur evs, ∃ init last, p = init ++ [last] ∧ (init = [] ∨ total init < target) := by
  induction l with
  | nil =>
    intro st evs _ hpass hin hlt h _
    simp only [run, Except.ok.injEq] at h
    subst h
    intro p hp
    split at hp
    · rename_i hpos
      simp only [packs, List.mem_cons, List.not_mem_nil, or_false] at hp
      subst hp
      rcases hlt with h | h
      · rw [hin, h] at hpos; simp [total] at hpos
      · rcases List.eq_nil_or_concat st.cur with hc | ⟨i, x, hc⟩
        · rw [hin, hc] at hpos; simp [total] at hpos
        · refine ⟨i, x, by rw [hc]; simp, .inr ?_⟩
          rw [hpass, hc] at h
          simp [total] at h ⊢
          omega
    · simp [packs] at hp
  | cons s l ih =>
    intro st evs hnext hpass hin hlt h hinc
    simp only [run] at h
    split at h
    · simp at h
    · rename_i st' ev hiter
      split at h
      · simp at h
      · rename_i evs' hrun
        simp only [Except.ok.injEq] at h
        subst h
        have hend : st' = init target →
            ev = [.wrote s.blob, .sized s.size, .flushed s.flushed, .ended] →
            ∀ p ∈ packs st.cur (ev ++ evs'), ∃ init last, p = init ++ [last] ∧
              (init = [] ∨ total init < target) := by
          intro h1 h2 p hp
          subst h1 h2
          have hp' : p ∈ (st.cur ++ [s.blob]) :: packs [] evs' := hp
          rcases List.mem_cons.mp hp' with rfl | hp'
          · refine ⟨st.cur, s.blob, rfl, ?_⟩
            rcases hlt with h | h
            · exact .inl h
            · rw [hpass] at h; exact .inr h
          · have hinc' : Incompressible 0 evs' := by
              simp only [List.cons_append, List.nil_append, Incompressible] at hinc
              exact hinc.2
            exact ih (init target) evs' rfl (by simp [init, total]) (by simp [init, total]) (.inl rfl)
              hrun hinc' p hp'
        unfold iter at hiter
        split at hiter
        · simp at hiter
        · simp only at hiter
          split at hiter
          · simp only [Except.ok.injEq, Prod.mk.injEq] at hiter
            exact hend hiter.1.symm hiter.2.symm
          · split at hiter
            · rename_i hle
              split at hiter
              · simp only [Except.ok.injEq, Prod.mk.injEq] at hiter
                exact hend hiter.1.symm hiter.2.symm
              · rename_i hfl
                simp only [Except.ok.injEq, Prod.mk.injEq] at hiter
                obtain ⟨rfl, rfl⟩ := hiter
                simp only [List.cons_append, List.nil_append, Incompressible] at hinc
                have := hinc.1
                omega
            · rename_i hle
              simp only [Except.ok.injEq, Prod.mk.injEq] at hiter
              obtain ⟨rfl, rfl⟩ := hiter
              simp only [List.cons_append, List.nil_append, Incompressible] at hinc
              refine ih ⟨st.cur ++ [s.blob], st.pass + s.blob.data.length,
                st.inPack + s.blob.data.length, st.next⟩ evs' hnext ?_ ?_ (.inr ?_) hrun hinc
              · simp only [hpass]; simp [total]
              · simp only [hin]; simp [total]
              · simp only; omega

/-- For data that does not compress, a pack without its last blob is smaller than the target
(or empty): packs overshoot by at most one blob. -/
theorem incompressible_overshoot (target : Nat) (est : Nat → Nat → Nat → Nat) (l : List (Step Id))
    (evs : List (Event Id)) (h : run target est (init target) l = .ok evs)
    (hinc : Incompressible 0 evs) :
    ∀ p ∈ packs [] evs, ∃ init last, p = init ++ [last] ∧ (init = [] ∨ total init < target) :=
  run_incompressible target est l (init target) evs rfl (by simp [init, total])
    (by simp [init, total]) (.inl rfl) h hinc

/-- Four blobs that do not compress and a target of 10 bytes. -/
def sample : List (Step Nat) :=
  [⟨⟨[1, 1, 1, 1, 1, 1, 1, 1], 1, .chunk⟩, 0, 8⟩, ⟨⟨[2, 2, 2, 2], 2, .chunk⟩, 0, 12⟩,
   ⟨⟨[3, 3, 3, 3, 3, 3, 3, 3, 3], 3, .chunk⟩, 4, 9⟩, ⟨⟨[4, 4], 4, .chunk⟩, 10, 11⟩]

/-- The hypotheses are met, and two packs of two blobs each come out. -/
example : ∃ evs, run 10 (fun i c t => i * (t - c) / c) (init 10) sample = .ok evs ∧
    Incompressible 0 evs ∧ (packs [] evs).map (·.map Blob.id) = [[1, 2], [3, 4]] :=
  ⟨_, rfl, by simp [Incompressible, init], rfl⟩

/-- The specifications can fail: writing past a hot measurement or past the budget is
rejected. -/
example : ¬ Cool 10 false [Event.wrote ⟨[1], 1, .chunk⟩, .sized 10, .wrote ⟨[2], 2, .chunk⟩] ∧
    ¬ WithinBudget 2 (fun _ _ _ => 0) 0 0 2
      [Event.wrote ⟨[1, 1], 1, .chunk⟩, .sized 0, .wrote ⟨[2], 2, .chunk⟩] := by
  simp [Cool, WithinBudget]

end Backpak.C09
