import Verif.Model.Rcu
import Mathlib.Data.List.Perm.Basic
import Mathlib.Data.List.Nodup

/-!
# C76: a value that is being replaced can be read safely
-/

namespace Backpak.C76

open Rcu

variable {α : Type}

/-- Where cells are. -/
def places (s : State α) : List Nat :=
  s.cur.toList ++ (s.swapped.map Prod.snd ++ (s.garbage.map Prod.fst ++ s.freed))

structure Inv (s : State α) : Prop where
  newest : ∀ c, s.cur = some c → c + 1 = s.cells.length
  placed : (places s).Perm (List.range s.cells.length)
  guards : s.pinned.Nodup
  known : ∀ g ∈ s.pinned, g < s.next
  kept : s.cur ≠ none → ∀ x ∈ s.borrows, s.cur = some x.2 ∨ x.2 ∈ s.swapped.map Prod.snd ∨
    ∃ gs, (x.2, gs) ∈ s.garbage ∧ x.1 ∈ gs
  alone : s.cur = none → s.loading = [] ∧ s.updating = [] ∧ s.swapped = []
  real : ∀ x ∈ s.borrows, x.2 < s.cells.length

theorem Inv.nodup {s : State α} (h : Inv s) : (places s).Nodup := h.placed.nodup_iff.mpr List.nodup_range

theorem step_inv {s s' : State α} (h : Step s s') (hi : Inv s) : Inv s' := by
  have hnd := hi.nodup
  obtain ⟨h1, h2, h3, h4, h5, h6, h7⟩ := hi
  cases h with
  | @pin cells c n loading bs us ss garbage freed =>
    refine ⟨h1, h2, ?_, ?_, h5, by simp, h7⟩
    · refine List.nodup_cons.mpr ⟨fun hm => ?_, h3⟩
      exact absurd (h4 n hm) (Nat.lt_irrefl _)
    · intro g hg
      rcases List.mem_cons.mp hg with rfl | hg
      · exact Nat.lt_succ_self _
      · exact Nat.lt_succ_of_lt (h4 g hg)
  | @load cells c n a g b bs us ss garbage freed =>
    have hp : (State.pinned (⟨cells, some c, n, a ++ b, (g, c) :: bs, us, ss, garbage, freed⟩ : State α)).Perm
        (State.pinned ⟨cells, some c, n, a ++ g :: b, bs, us, ss, garbage, freed⟩) := by
      simp only [State.pinned, List.map_cons, List.cons_append, List.append_assoc]
      refine List.Perm.append_left a ?_
      exact List.perm_middle
    refine ⟨h1, h2, hp.nodup_iff.mpr h3, fun g' hg => h4 g' (hp.subset hg), ?_, by simp, ?_⟩
    · intro _ x hx
      rcases List.mem_cons.mp hx with rfl | hx
      · exact .inl rfl
      · exact h5 (by simp) x hx
    · intro x hx
      rcases List.mem_cons.mp hx with rfl | hx
      · have := h1 c rfl
        dsimp only at this ⊢
        omega
      · exact h7 x hx
  | @release cells cur n loading a x b us ss garbage freed =>
    have hs : (State.pinned (⟨cells, cur, n, loading, a ++ b, us, ss, garbage, freed⟩ : State α)).Sublist
        (State.pinned ⟨cells, cur, n, loading, a ++ x :: b, us, ss, garbage, freed⟩) := by
      simp only [State.pinned, List.map_append, List.map_cons]
      exact List.Sublist.append (List.Sublist.refl _) (List.Sublist.append
        (List.Sublist.append (List.Sublist.refl _) (List.sublist_cons_self _ _)) (List.Sublist.refl _))
    refine ⟨h1, h2, hs.nodup h3, fun g hg => h4 g (hs.subset hg), fun hc y hy => h5 hc y ?_, h6, fun y hy => h7 y ?_⟩ <;>
    · simp only [List.mem_append, List.mem_cons] at hy ⊢
      tauto
  | @begin cells c n loading bs us ss garbage freed v =>
    have hp : (State.pinned (⟨cells, some c, n + 1, loading, bs, (n, v) :: us, ss, garbage, freed⟩ : State α)).Perm
        (n :: State.pinned ⟨cells, some c, n, loading, bs, us, ss, garbage, freed⟩) := by
      simp only [State.pinned, List.map_cons, List.cons_append]
      refine (List.Perm.append_left _ List.perm_middle).trans List.perm_middle
    refine ⟨h1, h2, hp.nodup_iff.mpr (List.nodup_cons.mpr ⟨fun hm => ?_, h3⟩), fun g hg => ?_, h5, by simp, h7⟩
    · exact absurd (h4 n hm) (Nat.lt_irrefl _)
    · rcases List.mem_cons.mp (hp.subset hg) with rfl | hg
      · exact Nat.lt_succ_self _
      · exact Nat.lt_succ_of_lt (h4 g hg)
  | @swap cells c n loading bs a g v b ss garbage freed =>
    have hp : (State.pinned (⟨cells ++ [v], some cells.length, n, loading, bs, a ++ b, (g, c) :: ss, garbage, freed⟩ :
        State α)).Perm (State.pinned ⟨cells, some c, n, loading, bs, a ++ (g, v) :: b, ss, garbage, freed⟩) := by
      simp only [State.pinned, List.map_cons, List.map_append, List.cons_append, List.append_assoc]
      refine List.Perm.append_left _ (List.Perm.append_left _ (List.Perm.append_left _ ?_))
      exact List.perm_middle
    refine ⟨fun c' e => ?_, ?_, hp.nodup_iff.mpr h3, fun g' hg => h4 g' (hp.subset hg), ?_, by simp, fun x hx => ?_⟩
    · cases e
      simp
    · simp only [places, Option.toList_some, List.map_cons, List.cons_append, List.nil_append, List.length_append,
        List.length_cons, List.length_nil, List.range_succ] at h2 ⊢
      exact (List.Perm.cons _ h2).trans (List.perm_append_comm (l₁ := [cells.length]))
    · intro _ x hx
      rcases h5 (by simp) x hx with e | e | e
      · cases e
        exact .inr (.inl (by simp))
      · exact .inr (.inl (List.mem_cons_of_mem _ e))
      · exact .inr (.inr e)
    · have := h7 x hx
      simp only [List.length_append, List.length_cons, List.length_nil] at this ⊢
      omega
  | @defer cells cur n loading bs us a g c b garbage freed =>
    have hs : (State.pinned (⟨cells, cur, n, loading, bs, us, a ++ b, garbage, freed⟩ : State α)).Sublist
        (State.pinned ⟨cells, cur, n, loading, bs, us, a ++ (g, c) :: b, garbage, freed⟩) := by
      simp only [State.pinned, List.map_append, List.map_cons]
      exact List.Sublist.append (List.Sublist.refl _) (List.Sublist.append (List.Sublist.refl _)
        (List.Sublist.append (List.Sublist.refl _)
          (List.Sublist.append (List.Sublist.refl _) (List.sublist_cons_self _ _))))
    refine ⟨h1, ?_, hs.nodup h3, fun g' hg => h4 g' (hs.subset hg), ?_, fun hc => ?_, h7⟩
    · refine List.Perm.trans ?_ h2
      simp only [places, List.map_append, List.map_cons, List.cons_append, List.append_assoc]
      refine List.Perm.append_left _ (List.Perm.append_left _ ?_)
      exact List.perm_middle
    · intro hc x hx
      rcases h5 hc x hx with e | e | ⟨gs, e1, e2⟩
      · exact .inl e
      · simp only [List.map_append, List.map_cons, List.mem_append, List.mem_cons] at e
        rcases e with e | e | e
        · exact .inr (.inl (by simp only [List.map_append, List.mem_append]; exact .inl e))
        · refine .inr (.inr ⟨_, by rw [e]; exact List.mem_cons_self, ?_⟩)
          simp only [State.pinned, List.mem_append]
          exact .inr (.inl (List.mem_map_of_mem hx))
        · exact .inr (.inl (by simp only [List.map_append, List.mem_append]; exact .inr e))
      · exact .inr (.inr ⟨gs, List.mem_cons_of_mem _ e1, e2⟩)
    · obtain ⟨e1, e2, e3⟩ := h6 hc
      simp at e3
  | @collect cells cur n loading bs us ss a c gs b freed hg =>
    refine ⟨h1, ?_, h3, h4, ?_, h6, h7⟩
    · refine List.Perm.trans ?_ h2
      simp only [places, List.map_append, List.map_cons, List.cons_append, List.append_assoc]
      refine List.Perm.append_left _ (List.Perm.append_left _ (List.Perm.append_left _ ?_))
      exact List.perm_middle
    · intro hc x hx
      rcases h5 hc x hx with e | e | ⟨gs', e1, e2⟩
      · exact .inl e
      · exact .inr (.inl e)
      · refine .inr (.inr ⟨gs', ?_, e2⟩)
        simp only [List.mem_append, List.mem_cons] at e1 ⊢
        rcases e1 with e1 | e1 | e1
        · exact .inl e1
        · exfalso
          cases e1
          refine hg x.1 e2 ?_
          simp only [State.pinned, List.mem_append]
          exact .inr (.inl (List.mem_map_of_mem hx))
        · exact .inr e1
  | @drop cells c n bs garbage freed =>
    refine ⟨by simp, ?_, h3, h4, fun hc => absurd rfl hc, fun _ => ⟨rfl, rfl, rfl⟩, h7⟩
    refine List.Perm.trans ?_ h2
    simp only [places, Option.toList_none, Option.toList_some, List.map_nil, List.nil_append, List.cons_append]
    exact List.perm_middle

theorem inv {v : α} {s : State α} (h : Reachable v s) : Inv s := by
  induction h with
  | refl =>
    refine ⟨fun c e => ?_, List.Perm.refl _, by simp [State.init, State.pinned], by simp [State.init, State.pinned],
      by simp [State.init], by simp [State.init], by simp [State.init]⟩
    cases e; rfl
  | tail _ hs ih => exact step_inv hs ih

/-- While the `Rcu` lives, whoever has borrowed a value has it: it is one that was published, and its memory has not
been given back, however many values have been published since. -/
theorem safe_partial {v : α} {s : State α} (h : Reachable v s) (hc : s.cur ≠ none) {g c : Nat} (hb : (g, c) ∈ s.borrows) :
    c < s.cells.length ∧ c ∉ s.freed := by
  have hi := inv h
  refine ⟨hi.real _ hb, fun hf => ?_⟩
  have hnd := hi.nodup
  simp only [places] at hnd
  rw [List.nodup_append] at hnd
  obtain ⟨_, h2, h3⟩ := hnd
  rcases hi.kept hc _ hb with e | e | ⟨gs, e, _⟩
  · refine h3 c (by rw [e]; simp) c ?_ rfl
    simp [hf]
  · rw [List.nodup_append] at h2
    exact h2.2.2 c e c (by simp [hf]) rfl
  · rw [List.nodup_append] at h2
    have h4 := h2.2.1
    rw [List.nodup_append] at h4
    exact h4.2.2 c (List.mem_map_of_mem e) c hf rfl

/-- What is borrowed is the value published last. -/
theorem latest {v : α} {s s' : State α} (h : Reachable v s) (hs : Step s s') {g c : Nat} (hn : (g, c) ∉ s.borrows)
    (hb : (g, c) ∈ s'.borrows) : s'.cells[c]? = s'.cells.getLast? := by
  have hi := inv h
  cases hs with
  | @load cells c' n a g' b bs us ss garbage freed =>
    rcases List.mem_cons.mp hb with e | e
    · cases e
      have := hi.newest c rfl
      dsimp only at this ⊢
      rw [List.getLast?_eq_getElem?]
      congr 1
      omega
    · exact absurd e hn
  | @release cells cur n loading a x b us ss garbage freed =>
    refine absurd ?_ hn
    simp only [List.mem_append, List.mem_cons] at hb ⊢
    tauto
  | _ => exact absurd hb hn

/-- No memory is given back twice, and once the `Rcu` is dropped and what was deferred is done, all of it has been. -/
theorem freed_once {v : α} {s : State α} (h : Reachable v s) :
    s.freed.Nodup ∧ (s.cur = none → s.garbage = [] → ∀ c < s.cells.length, c ∈ s.freed) := by
  have hi := inv h
  have hnd := hi.nodup
  simp only [places] at hnd
  refine ⟨((List.nodup_append.mp (List.nodup_append.mp (List.nodup_append.mp hnd).2.1).2.1).2.1), ?_⟩
  intro hc hg c hlt
  have hm : c ∈ places s := hi.placed.symm.subset (List.mem_range.mpr hlt)
  obtain ⟨_, _, hsw⟩ := hi.alone hc
  simpa [places, hc, hg, hsw] using hm

/-- What was deferred can be done once nobody has a value. -/
theorem collectable {s : State α} (hp : s.pinned = []) {x : Nat × List Nat} (hx : x ∈ s.garbage) :
    ∃ s', Step s s' ∧ s'.freed = x.1 :: s.freed := by
  obtain ⟨cells, cur, n, loading, bs, us, ss, garbage, freed⟩ := s
  obtain ⟨a, b, rfl⟩ := List.append_of_mem hx
  obtain ⟨c, gs⟩ := x
  refine ⟨_, .collect (fun g _ hg => ?_), rfl⟩
  have : g ∈ ([] : List Nat) := hp ▸ hg
  cases this

/-- But a value may be kept for longer than the `Rcu` lives, and then its memory is given back though somebody has it. -/
theorem outlived (v : α) : ∃ s, Reachable v s ∧ ∃ g c, (g, c) ∈ s.borrows ∧ c ∈ s.freed :=
  ⟨_, .tail (.tail (.tail .refl .pin) (.load (a := []) (b := []))) .drop, 0, 0, by simp, by simp⟩

/-- A value is borrowed and two others are published: the first is still there. -/
theorem two_published : Reachable 'a' ⟨['a', 'b', 'c'], some 2, 3, [], [(0, 0)], [], [], [(1, [0, 2]), (0, [0, 1])], []⟩ :=
  .tail (.tail (.tail (.tail (.tail (.tail (.tail (.tail .refl .pin) (.load (a := []) (b := [])))
    (.begin 'b')) (.swap (a := []) (b := []))) (.defer (a := []) (b := []))) (.begin 'c'))
    (.swap (a := []) (b := []))) (.defer (a := []) (b := []))

example : (0 : Nat) < 3 ∧ 0 ∉ ([] : List Nat) := safe_partial two_published (by simp) (g := 0) (by simp)

/-- When it is let go, both old ones can be given back. -/
example : ∃ s, Reachable 'a' s ∧ s.cur = some 2 ∧ s.freed = [0, 1] := by
  refine ⟨_, .tail (.tail (two_published.tail (.release (a := []) (b := [])))
    (.collect (a := []) ?_)) (.collect (a := []) ?_), rfl, rfl⟩ <;> simp [State.pinned]

end Backpak.C76
