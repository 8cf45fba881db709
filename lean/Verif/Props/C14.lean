import Verif.Lemmas.Pipeline2
import Verif.Model.Resume
import Verif.Props.C12

/-!
# C14 - An interrupted backup can always be resumed
-/

namespace Backpak.C14

open Pipeline

variable {Id : Type} [LinearOrder Id]

/-- Every pack the work-in-progress index lists is in the working directory or the repository. -/
def Resumable (w : World Id) : Prop :=
  ∀ x, w.cwd.wip = some x → ∀ p ∈ BMap.keys x.packs,
    p ∈ BMap.keys w.cwd.packs ∨ p ∈ BMap.keys w.repo.packs

/-- The next command accepts what it finds exactly when that is so. -/
theorem accepted_iff (w : World Id) : (∃ r, findResumable w = .ok r) ↔ Resumable w := by
  unfold findResumable Resumable
  cases hw : w.cwd.wip with
  | none => simp
  | some x =>
    simp only [Option.some.injEq, forall_eq']
    constructor
    · rintro ⟨r, hr⟩ p hp
      split at hr
      · rename_i hall
        rw [List.all_eq_true] at hall
        by_cases hc : p ∈ BMap.keys w.cwd.packs
        · exact .inl hc
        · refine .inr (BMap.get?_isSome_iff.mp (hall p ?_))
          simp [hp, findCwdPacks, hc]
      · simp at hr
    · intro h
      refine ⟨_, if_pos ?_⟩
      rw [List.all_eq_true]
      intro p hp
      rw [List.mem_filter] at hp
      rcases h p hp.1 with h1 | h1
      · have : p ∈ findCwdPacks w.cwd x :=
          List.mem_filter.mpr ⟨h1, BMap.get?_isSome_iff.mpr hp.1⟩
        simp [this] at hp
      · exact BMap.get?_isSome_iff.mpr h1

/-- What it resumes from: the work-in-progress index and those of its packs that are in the
working directory; all others are in the repository. -/
theorem resumes_from (w : World Id) (x : Index Id) (here : List Id)
    (h : findResumable w = .ok (some (x, here))) :
    w.cwd.wip = some x ∧ (∀ p ∈ here, p ∈ BMap.keys w.cwd.packs) ∧
    ∀ p ∈ BMap.keys x.packs, p ∈ here ∨ p ∈ BMap.keys w.repo.packs := by
  unfold findResumable at h
  split at h
  · simp at h
  · rename_i y hy
    simp only at h
    split at h
    · rename_i hall
      simp only [Except.ok.injEq, Option.some.injEq, Prod.mk.injEq] at h
      obtain ⟨rfl, rfl⟩ := h
      refine ⟨hy, fun p hp => (List.mem_filter.mp hp).1, ?_⟩
      intro p hp
      by_cases hh : p ∈ findCwdPacks w.cwd y
      · exact .inl hh
      · rw [List.all_eq_true] at hall
        exact .inr (BMap.get?_isSome_iff.mp (hall p (by simp [hp, hh])))
    · simp at h

theorem joined_wip {c : Cfg Id} {w : World Id} {main : List (Op Id)} {s : State Id}
    (h : Reachable c w main s) : s.joined = true → s.world.cwd.wip = none := by
  refine reach_induct' (P := fun s => s.joined = true → s.world.cwd.wip = none) (by simp [init]) ?_ h
  intro s t hc hp hstep hj
  cases hstep with
  | ixPersist x hi _ =>
    obtain ⟨y, hy⟩ := hc.upExit (hc.joinedUp hj)
    simp [hi] at hy
  | ixPersistLast x hi =>
    obtain ⟨y, hy⟩ := hc.upExit (hc.joinedUp hj)
    simp [hi] at hy
  | upDrop i hu => simp [hc.joinedUp hj] at hu
  | upMove i hu _ => simp [hc.joinedUp hj] at hu
  | upDiscard i hu _ => simp [hc.joinedUp hj] at hu
  | join => rfl
  | spawn _ _ | mainUp _ _ _ _ _ _ _ | mainSend _ _ _ _ _ _ | close _ _ | endPack _ _ _ _ _ _
  | packerExit _ _ _ _ _ _ | packerUp _ _ _ _ _ _ | packerIdx _ _ _ _ _ _ _ _
  | packerDup _ _ _ _ _ _ _ _ | ixEmpty _ _ _ _ _ _ | ixClosed _ _ _ _ _ _
  | ixCopy _ _ | ixUp _ _ _ _ | upStore _ _ _ | upExit _ _ _ _ _ _ => exact hp hj

/-- Whenever a command that writes (backup, copy, filter, prune) dies, the next one can resume:
if it could be resumed from what was there when it started, and starts from packs that exist,
it can be resumed from what is there at every instant. -/
theorem always_resumable_partial (c : Cfg Id) (w w' : World Id) (main : List (Op Id)) (post : List (Post Id))
    (hlive : c.live = true) (hw : Resumable w)
    (hst : ∀ p ∈ BMap.keys c.start.packs, p ∈ BMap.keys w.cwd.packs ∨ p ∈ BMap.keys w.repo.packs)
    (h : Instant c w main post w') : ∃ r, findResumable w' = .ok r := by
  rw [accepted_iff]
  cases h with
  | during s hs => exact (wip hlive hw hst hs).wip
  | after s done rest hs hj _ =>
    intro x hx
    simp [joined_wip hs hj] at hx

/-- In particular a backup that resumes from what it found, dies, is resumed, dies again, and so
on: however often. -/
theorem resumable_chain_partial (c : Cfg Id) (w w' : World Id) (main : List (Op Id)) (post : List (Post Id))
    (hlive : c.live = true) (x : Index Id) (here : List Id)
    (hr : findResumable w = .ok (some (x, here))) (hc : c.start = x)
    (h : Instant c w main post w') : ∃ r, findResumable w' = .ok r := by
  refine always_resumable_partial c w w' main post hlive ((accepted_iff w).mp ⟨_, hr⟩) ?_ h
  intro p hp
  rw [hc] at hp
  obtain ⟨_, h2, h3⟩ := resumes_from w x here hr
  rcases h3 p hp with h | h
  · exact .inl (h2 p h)
  · exact .inr h

/-- A dry run that dies after writing its index file and before removing it leaves an index
listing packs that exist nowhere, which every later command refuses. -/
theorem dry_run_blocks_resume :
    ∃ (c : Cfg Nat) (w : World Nat) (main : List (Op Nat)) (s : State Nat),
      c.live = false ∧ c.start = Index.empty ∧ w.cwd.wip = none ∧ Reachable c w main s ∧
      ¬ ∃ r, findResumable s.world = .ok r := by
  have key : ∃ s, Reachable ⟨C12.exIds, false, 4, Index.empty, fun _ => True⟩ C12.exWorld
      [.send C12.exBlob] s ∧
      s.world = ⟨⟨[], [], []⟩, ⟨some ⟨[], [(7, [⟨.chunk, 3, 7⟩])]⟩, [], []⟩⟩ := by
    refine run_step (.spawn _ (by decide) (by decide)) ?_
    refine run_step (.spawn _ (by decide) (by decide)) ?_
    refine run_step (.spawn _ (by decide) (by decide)) ?_
    refine run_step (.spawn _ (by decide) (by decide)) ?_
    refine run_step (.mainSend _ C12.exBlob [] [] rfl (by decide) rfl) ?_
    refine run_step (.close _ rfl rfl) ?_
    refine run_step (.endPack _ .chunk [C12.exBlob] (by decide) rfl (by decide) trivial) ?_
    refine run_step (.packerUp _ .chunk 7 [C12.exBlob] rfl (by decide) rfl) ?_
    refine run_step (.packerIdx _ .chunk 7 [C12.exBlob] Index.empty rfl (by decide) rfl (by decide)) ?_
    refine run_step (.upDiscard _ (.pack 7 [C12.exBlob]) rfl rfl) ?_
    refine run_step (.packerExit _ .chunk [] (by decide) rfl rfl (by decide)) ?_
    refine run_step (.packerExit _ .tree [] (by decide) rfl rfl (by decide)) ?_
    refine run_step (.ixClosed _ ⟨[], [(7, [⟨.chunk, 3, 7⟩])]⟩ rfl (by decide) rfl rfl rfl) ?_
    refine run_step (.ixPersistLast _ ⟨[], [(7, [⟨.chunk, 3, 7⟩])]⟩ rfl) ?_
    exact ⟨_, .refl, rfl⟩
  obtain ⟨s, hs, hw⟩ := key
  refine ⟨_, _, _, s, rfl, rfl, rfl, hs, ?_⟩
  rw [hw]
  rintro ⟨r, hr⟩
  simp [findResumable, findCwdPacks, BMap.keys, BMap.get?] at hr

/-- The hypotheses of `always_resumable_partial` at a state that has a pack in the working directory
only: a work-in-progress index and nothing uploaded yet. -/
example : ∃ s, Reachable C12.exCfg C12.exWorld [.send C12.exBlob] s ∧
    s.world = ⟨⟨[], [], []⟩, ⟨some ⟨[], [(7, [⟨.chunk, 3, 7⟩])]⟩, [(7, [C12.exBlob])], []⟩⟩ ∧
    Resumable C12.exWorld := by
  have key : ∃ s, Reachable C12.exCfg C12.exWorld [.send C12.exBlob] s ∧
      s.world = ⟨⟨[], [], []⟩, ⟨some ⟨[], [(7, [⟨.chunk, 3, 7⟩])]⟩, [(7, [C12.exBlob])], []⟩⟩ := by
    refine run_step (.spawn _ (by decide) (by decide)) ?_
    refine run_step (.spawn _ (by decide) (by decide)) ?_
    refine run_step (.spawn _ (by decide) (by decide)) ?_
    refine run_step (.spawn _ (by decide) (by decide)) ?_
    refine run_step (.mainSend _ C12.exBlob [] [] rfl (by decide) rfl) ?_
    refine run_step (.endPack _ .chunk [C12.exBlob] (by decide) rfl (by decide) trivial) ?_
    refine run_step (.packerUp _ .chunk 7 [C12.exBlob] rfl (by decide) rfl) ?_
    refine run_step (.packerIdx _ .chunk 7 [C12.exBlob] Index.empty rfl (by decide) rfl (by decide)) ?_
    refine run_step (.ixPersist _ ⟨[], [(7, [⟨.chunk, 3, 7⟩])]⟩ rfl (by decide)) ?_
    exact ⟨_, .refl, rfl⟩
  obtain ⟨s, h1, h2⟩ := key
  exact ⟨s, h1, h2, by simp [Resumable, C12.exWorld]⟩

end Backpak.C14
