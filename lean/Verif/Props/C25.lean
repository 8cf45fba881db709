import Verif.Lemmas.PruneLeft
import Verif.Props.C24
import Verif.Props.C26
import Verif.Props.C28
import Verif.Model.Forget

/-!
# C25 - Prune resumed from a work-in-progress index

The claim holds of prunes that follow one another, each stopped anywhere, with nothing between them
(`resumed_keeps_partial`). In general it is false. A prune was interrupted; a snapshot was
forgotten; the next prune starts from the first one's work-in-progress index, but removes the packs
*it* does not want (`src/ui/prune.rs:119-161,219-240`).
-/

namespace Backpak.C25

open Spec Pipeline Backpak

/-! ## Prunes that follow one another -/

section Chain

variable {Id : Type} [LinearOrder Id] (C : Codec Id) (ids : Ids Id) (cores : Nat)

/-- A prune that finds something to do, and is stopped anywhere or runs to its end. It loads the
repository afresh, and may load it in another way than the prune before it. -/
inductive Pruned : World Id → World Id → Prop
  | mk {w w' : World Id} {env : CacheEnv Id} {src : Source Id} {snaps : List (Snap Id)} {plan : Plan Id} :
      C33.EnvOk env → Opens w.repo src → (∀ i s, (i, s) ∈ w.repo.snapshots ↔ (s, i) ∈ snaps) →
      PruneNoClash ids cores w plan → prunePlan C env w src snaps false = .ok (some plan) →
      Instant (liveCfg ids cores plan.start) w plan.main plan.posts w' → Pruned w w'

variable {C ids cores}

/-- After any number of prunes, each stopped anywhere and the next starting from whatever
work-in-progress index it left, the repository is in good order, every snapshot stands for the very
file tree it stood for at first, and yet another prune can start. -/
theorem resumed_keeps_partial {w w' : World Id} (hH : Healthy C ids w.repo) (hL : PruneLeft C ids w)
    (hE : ∀ x, ¬ Has C w.repo ⟨x, C.emptyId, .chunk⟩)
    (h : Relation.ReflTransGen (Pruned C ids cores) w w') :
    Healthy C ids w'.repo ∧ w'.repo.snapshots = w.repo.snapshots ∧
    (∀ i sn d, (i, sn) ∈ w.repo.snapshots → Holds C w.repo sn.tree d → Holds C w'.repo sn.tree d) ∧
    PruneLeft C ids w' ∧ ∀ x, ¬ Has C w'.repo ⟨x, C.emptyId, .chunk⟩ := by
  induction h with
  | refl => exact ⟨hH, rfl, fun _ _ _ _ h => h, hL, hE⟩
  | tail _ hs ih =>
    obtain ⟨h1, h2, h3, h4, h5⟩ := ih
    cases hs with
    | mk a1 a2 a3 a4 a5 a6 =>
      have hP : PruneOk C _ ids _ _ _ := ⟨a1, h1, h4, a2, a3, h5⟩
      obtain ⟨c, reach, hpr⟩ := pruning hP a4 a5
      obtain ⟨b1, b2, b3, b4, b5⟩ := hpr.next hP a6
      refine ⟨b1, b3.trans h2, fun i sn d hm hd => b4 i sn d (by rw [h2]; exact hm) (h3 i sn d hm hd), b2, ?_⟩
      intro x hx
      rcases b5 _ hx with h | h
      · exact h5 x h
      · cases h

/-- A prune that resumes them and runs to its end leaves what `C26` says: what can be found is needed
by some snapshot, every snapshot stands for what it stood for at first, and nothing is left to
resume. -/
theorem resumed_finished_partial {w u w' : World Id} (hH : Healthy C ids w.repo) (hL : PruneLeft C ids w)
    (hE : ∀ x, ¬ Has C w.repo ⟨x, C.emptyId, .chunk⟩)
    (h : Relation.ReflTransGen (Pruned C ids cores) w u)
    {env : CacheEnv Id} {src : Source Id} {snaps : List (Snap Id)} {plan : Plan Id}
    (hc : C33.EnvOk env) (ho : Opens u.repo src) (hs : ∀ i s, (i, s) ∈ u.repo.snapshots ↔ (s, i) ∈ snaps)
    (hN : PruneNoClash ids cores u plan) (hp : prunePlan C env u src snaps false = .ok (some plan))
    (hf : Finished (liveCfg ids cores plan.start) u plan.main plan.posts w') :
    w'.repo.snapshots = w.repo.snapshots ∧
    (∀ i sn d, (i, sn) ∈ w.repo.snapshots → Holds C w.repo sn.tree d → Holds C w'.repo sn.tree d) ∧
    (∀ p m e, Listed w'.repo.indexes p m → e ∈ m → Needed C w'.repo e.id) ∧
    w'.cwd.wip = none ∧ Leftover C ids w' := by
  obtain ⟨h1, h2, h3, h4, h5⟩ := resumed_keeps_partial hH hL hE h
  have hP : PruneOk C env ids u src snaps := ⟨hc, h1, h4, ho, hs, h5⟩
  have hl := C26.left hP hN hp hf
  exact ⟨hl.snaps.trans h2, fun i sn d hm hd => hl.holds i sn d (by rw [h2]; exact hm) (h3 i sn d hm hd),
    C26.only_needed_partial u w' hP hN hp hf, C24.leaves_nothing u w' hP hN hp hf⟩

end Chain

/-- The first prune: only the unused pack goes. -/
def plan1 : Plan ObjectId :=
  Demo.prunePlanOf (prunePlan Demo.codec Demo.env (Demo.clean Demo.repoAB) (Check.opened Demo.repoAB)
    (Demo.snapsOf Demo.repoAB) false)

theorem plan1_eq : prunePlan Demo.codec Demo.env (Demo.clean Demo.repoAB) (Check.opened Demo.repoAB)
    (Demo.snapsOf Demo.repoAB) false = .ok (some plan1) := Demo.prunePlanOf_eq (by decide +kernel)

/-- What it has written when it is interrupted: its index, in the working directory. -/
def left1 : Cwd ObjectId := ⟨some plan1.start, [], []⟩

theorem start1 : plan1.start.isEmpty = false := by decide +kernel

/-- The first thing any run does that starts from an index: its indexer writes that. -/
theorem first_write {Id : Type} [LinearOrder Id] (ids : Ids Id) (start : Index Id) (w : World Id)
    (main : List (Op Id)) (hne : start.isEmpty = false) :
    ∃ s, Reachable (liveCfg ids 4 start) w main s ∧ s.world = ⟨w.repo, { w.cwd with wip := some start }⟩ := by
  have hinit : init (liveCfg ids 4 start) w main =
      ⟨w, main, false, false, 0, fun _ => .recv [], .persist start, .idle⟩ := by
    unfold init
    rw [if_pos ⟨rfl, hne⟩]
    rfl
  unfold Reachable
  rw [hinit]
  have hc : (liveCfg ids 4 start).cores = 4 := rfl
  refine run_step (.spawn _ (by simp) (by simp [State.running, hc])) ?_
  refine run_step (.spawn _ (by simp) (by simp [State.running, hc, PackerState.running])) ?_
  refine run_step (.spawn _ (by simp) (by simp [State.running, hc, PackerState.running])) ?_
  refine run_step (.ixPersist _ start rfl (by simp)) ?_
  exact ⟨_, .refl, rfl⟩

theorem interrupted : ∃ s, Reachable (liveCfg Demo.pruneIds 4 plan1.start) (Demo.clean Demo.repoAB) plan1.main s ∧
    s.world = ⟨Demo.repoAB, left1⟩ := first_write _ _ _ _ start1

/-- What a prune that must repack leaves when it is stopped as soon as its indexer has written its
first file. -/
def leftA : World ObjectId := ⟨Demo.repoA, ⟨some Demo.planA.start, [], []⟩⟩

theorem startA : Demo.planA.start.isEmpty = false := by decide +kernel

theorem interruptedA : Instant (liveCfg Demo.pruneIds 4 Demo.planA.start) (Demo.clean Demo.repoA) Demo.planA.main
    Demo.planA.posts leftA := by
  obtain ⟨s, hs, hw⟩ := first_write Demo.pruneIds Demo.planA.start (Demo.clean Demo.repoA) Demo.planA.main startA
  have : leftA = s.world := hw.symm
  rw [this]
  exact .during s hs

/-- The prune that resumes it. -/
def planA' : Plan ObjectId :=
  Demo.prunePlanOf (prunePlan Demo.codec Demo.env leftA (Check.opened Demo.repoA) (Demo.snapsOf Demo.repoA) false)

theorem planA'_eq : prunePlan Demo.codec Demo.env leftA (Check.opened Demo.repoA)
    (Demo.snapsOf Demo.repoA) false = .ok (some planA') := Demo.prunePlanOf_eq (by decide +kernel)

theorem noClashA' : PruneNoClash Demo.pruneIds 4 leftA planA' where
  packs := Check.packsDiffer_sound (by decide +kernel)
  indexes := Demo.indexNew_of (by decide +kernel)

theorem loadedA : ∀ i s, (i, s) ∈ Demo.repoA.snapshots ↔ (s, i) ∈ Demo.snapsOf Demo.repoA := Demo.pruneOkA.loaded

theorem opensA : Opens leftA.repo (Check.opened Demo.repoA) := Check.opened_opens Demo.healthyA

theorem loadedA' : ∀ i s, (i, s) ∈ leftA.repo.snapshots ↔ (s, i) ∈ Demo.snapsOf Demo.repoA := loadedA

theorem sortedA : BMap.Sorted leftA.cwd.packs := BMap.sorted_nil

theorem chainA : Relation.ReflTransGen (Pruned Demo.codec Demo.pruneIds 4) (Demo.clean Demo.repoA) leftA :=
  .single (.mk Demo.env_ok (Check.opened_opens Demo.healthyA) loadedA Demo.noClashA Demo.planA_eq interruptedA)

theorem finishesA : ∃ w', Finished (liveCfg Demo.pruneIds 4 planA'.start) leftA planA'.main planA'.posts w' := by
  have hk := resumed_keeps_partial (w := Demo.clean Demo.repoA) Demo.healthyA Demo.pruneOkA.leftover
    Demo.pruneOkA.noEmpty chainA
  have hP : PruneOk Demo.codec Demo.env Demo.pruneIds leftA (Check.opened Demo.repoA) (Demo.snapsOf Demo.repoA) :=
    ⟨Demo.env_ok, hk.1, hk.2.2.2.1, opensA, loadedA', hk.2.2.2.2⟩
  obtain ⟨t, ht, hj⟩ := C24.finishes _ hP noClashA' planA'_eq (Nat.le_refl 4) sortedA _ .refl
  exact ⟨_, .mk t ht hj⟩

/-- A prune that is interrupted; the one that resumes it repacks the same two blobs, and can finish. -/
example : Healthy Demo.codec Demo.pruneIds Demo.repoA ∧
    PruneLeft Demo.codec Demo.pruneIds (Demo.clean Demo.repoA) ∧
    (∀ x, ¬ Has Demo.codec Demo.repoA ⟨x, Demo.codec.emptyId, .chunk⟩) ∧
    Relation.ReflTransGen (Pruned Demo.codec Demo.pruneIds 4) (Demo.clean Demo.repoA) leftA ∧
    leftA.cwd.wip ≠ none ∧
    PruneNoClash Demo.pruneIds 4 leftA planA' ∧
    prunePlan Demo.codec Demo.env leftA (Check.opened Demo.repoA) (Demo.snapsOf Demo.repoA) false =
      .ok (some planA') ∧
    sends planA'.main = [Demo.chunkA, Demo.treeA] ∧ planA'.posts.length = 4 ∧
    ∃ w', Finished (liveCfg Demo.pruneIds 4 planA'.start) leftA planA'.main planA'.posts w' :=
  ⟨Demo.healthyA, Demo.pruneOkA.leftover, Demo.pruneOkA.noEmpty, chainA, by simp [leftA], noClashA', planA'_eq,
    by decide +kernel, by decide +kernel, finishesA⟩

/-! ## Prunes with something between them -/

/-- Then the newer snapshot is forgotten. -/
theorem forgets : forget (fun _ => true) false (Demo.snapsOf Demo.repoAB) [ascii "LAST"] Demo.repoAB
    = (Demo.repoA, true) := by decide +kernel

/-- What the second prune finds. -/
def found2 : World ObjectId := ⟨Demo.repoA, left1⟩

/-- The second prune. -/
def plan2 : Plan ObjectId :=
  Demo.prunePlanOf (prunePlan Demo.codec Demo.env found2 (Check.opened Demo.repoA)
    (Demo.snapsOf Demo.repoA) false)

theorem plan2_eq : prunePlan Demo.codec Demo.env found2 (Check.opened Demo.repoA)
    (Demo.snapsOf Demo.repoA) false = .ok (some plan2) := Demo.prunePlanOf_eq (by decide +kernel)

theorem main2 : plan2.main = mainOf [] [] := by decide +kernel

theorem run2 : Check.run Demo.codec Demo.pruneIds found2 plan2.start [] = true := by decide +kernel

theorem posts2 : ∀ o ∈ plan2.posts, ∀ sn, o ≠ .putSnap sn := by
  have : plan2.posts.all (fun o => match o with | .putSnap _ => false | _ => true) = true := by decide +kernel
  intro o ho sn h
  have := List.all_eq_true.mp this o ho
  subst h
  cases this

theorem all2 : ∀ bs ∈ Check.involved found2 (mainOf [] []),
    Post.rmPack (Demo.pruneIds.packId (Pack.manifestOf bs)) ∈ plan2.posts ∨ bs = [] := by decide +kernel

theorem packs_post (ids : Ids ObjectId) (ops : List (Post ObjectId)) (R : Repo ObjectId) (e : ObjectId × Pack ObjectId)
    (h : e ∈ (ops.foldl (applyPost ids) R).packs) : e ∈ R.packs := by
  induction ops generalizing R with
  | nil => exact h
  | cons o ops ih =>
    have := ih _ h
    cases o with
    | putSnap sn => exact this
    | rmIndex j => exact this
    | rmPack p => exact (BMap.mem_erase_iff.mp this).2

theorem snaps_post (ids : Ids ObjectId) (ops : List (Post ObjectId)) (R : Repo ObjectId)
    (h : ∀ o ∈ ops, ∀ sn, o ≠ .putSnap sn) :
    (ops.foldl (applyPost ids) R).snapshots = R.snapshots := by
  induction ops generalizing R with
  | nil => rfl
  | cons o ops ih =>
    rw [List.foldl_cons, ih _ (fun o' ho => h o' (List.mem_cons_of_mem _ ho))]
    cases o with
    | putSnap sn => exact absurd rfl (h _ List.mem_cons_self sn)
    | rmIndex j => rfl
    | rmPack p => rfl

/-- A repository in good order with two snapshots; a prune, stopped as soon as its indexer has
written its first file; the newer snapshot is forgotten; a second prune, not interrupted. It can
finish, and however it does, the older snapshot is still there and cannot be read. -/
theorem resumed_prune_loses :
    PruneOk Demo.codec Demo.env Demo.pruneIds (Demo.clean Demo.repoAB) (Check.opened Demo.repoAB)
      (Demo.snapsOf Demo.repoAB) ∧
    prunePlan Demo.codec Demo.env (Demo.clean Demo.repoAB) (Check.opened Demo.repoAB)
      (Demo.snapsOf Demo.repoAB) false = .ok (some plan1) ∧
    Instant (liveCfg Demo.pruneIds 4 plan1.start) (Demo.clean Demo.repoAB) plan1.main plan1.posts
      ⟨Demo.repoAB, left1⟩ ∧
    forget (fun _ => true) false (Demo.snapsOf Demo.repoAB) [ascii "LAST"] Demo.repoAB = (Demo.repoA, true) ∧
    Opens Demo.repoA (Check.opened Demo.repoA) ∧
    prunePlan Demo.codec Demo.env ⟨Demo.repoA, left1⟩ (Check.opened Demo.repoA) (Demo.snapsOf Demo.repoA) false =
      .ok (some plan2) ∧
    (∃ w', Finished (liveCfg Demo.pruneIds 4 plan2.start) ⟨Demo.repoA, left1⟩ plan2.main plan2.posts w') ∧
    ∀ w', Finished (liveCfg Demo.pruneIds 4 plan2.start) ⟨Demo.repoA, left1⟩ plan2.main plan2.posts w' →
      (Demo.pruneIds.snapId Demo.snapA, Demo.snapA) ∈ w'.repo.snapshots ∧
      ¬ Readable Demo.codec w'.repo Demo.snapA := by
  refine ⟨Demo.pruneOk_of Demo.healthyAB (by decide +kernel), plan1_eq, ?_, forgets,
    Check.opened_opens Demo.healthyA, plan2_eq, ?_, ?_⟩
  · obtain ⟨s, hs, hw⟩ := interrupted
    rw [← hw]
    exact .during s hs
  · obtain ⟨t, ht, hj⟩ := Check.run_finishes (cores := 4) (w := found2) Demo.healthyA run2 (Nat.le_refl 4)
    exact ⟨_, .mk t (by rw [main2]; exact ht) hj⟩
  · intro w' h
    cases h with
    | mk s hs hj =>
      rw [main2] at hs
      obtain ⟨h1, _⟩ := Check.run_sound (cores := 4) (w := found2) Demo.healthyA run2
      have hsn := (effect h1 (Check.run_reachable hs)).snaps
      have hp := Check.run_packs (w := found2) Demo.healthyA run2 hs
      simp only [liveCfg_ids]
      have posts2 := posts2
      have all2 := all2
      refine ⟨?_, Check.no_root C24.failing_ne ?_⟩
      · rw [snaps_post _ _ _ posts2, hsn]
        exact C24.failing_in
      · rintro b ⟨_, p, bs, _, hb, hin⟩
        exfalso
        have hk := BMap.mem_keys_of_mem hb
        obtain ⟨h2, h3⟩ := hp p bs (packs_post _ _ _ _ hb)
        rcases all2 bs h3 with h4 | h4
        · exact (gone _ _ posts2).2 p (.inl (by rw [h2]; exact h4)) hk
        · subst h4
          cases hin

/-! ## After a dry run of rebuild-index

That leaves a work-in-progress index of every pack (`C28.dry_leaves_wip`), which a prune takes to
be its own. No command has been interrupted. -/

/-- What the dry run leaves. -/
def left3 : Cwd ObjectId := C28.leftBy Demo.pruneIds (Demo.clean Demo.repoA)

theorem newA : C28.NewName Demo.pruneIds Demo.repoA := C28.newName_of (by decide +kernel)

theorem packsA : Demo.repoA.packs ≠ [] := by decide +kernel

theorem dry_of {R : Repo ObjectId} (hh : Healthy Demo.codec Demo.pruneIds R) (hn : C28.NewName Demo.pruneIds R)
    (hne : R.packs ≠ []) :
    Rebuild.Finished Demo.pruneIds false (Demo.clean R) ⟨R, C28.leftBy Demo.pruneIds (Demo.clean R)⟩ :=
  (C28.dry_leaves_wip (Demo.clean R) hh.packs_sorted hn (.inl hne)).1

theorem rebuilt : Rebuild.Finished Demo.pruneIds false (Demo.clean Demo.repoA) ⟨Demo.repoA, left3⟩ :=
  dry_of Demo.healthyA newA packsA

def found3 : World ObjectId := ⟨Demo.repoA, left3⟩

def plan3 : Plan ObjectId :=
  Demo.prunePlanOf (prunePlan Demo.codec Demo.env found3 (Check.opened Demo.repoA)
    (Demo.snapsOf Demo.repoA) false)

theorem plan3_eq : prunePlan Demo.codec Demo.env found3 (Check.opened Demo.repoA)
    (Demo.snapsOf Demo.repoA) false = .ok (some plan3) := Demo.prunePlanOf_eq (by decide +kernel)

theorem main3 : plan3.main = mainOf [] [] := by decide +kernel

theorem run3 : Check.run Demo.codec Demo.pruneIds found3 plan3.start [] = true := by decide +kernel

theorem posts3 : ∀ o ∈ plan3.posts, ∀ sn, o ≠ .putSnap sn := by
  have : plan3.posts.all (fun o => match o with | .putSnap _ => false | _ => true) = true := by decide +kernel
  intro o ho sn h
  have := List.all_eq_true.mp this o ho
  subst h
  cases this

theorem all3 : ∀ bs ∈ Check.involved found3 (mainOf [] []),
    Post.rmPack (Demo.pruneIds.packId (Pack.manifestOf bs)) ∈ plan3.posts ∨ bs = [] := by decide +kernel

/-- A repository in good order, some of whose blobs nothing uses; a dry run of rebuild-index; a
prune. Neither is interrupted. The prune can finish, and however it does, the snapshot is still
there and cannot be read. -/
theorem dry_rebuild_then_prune_loses :
    Healthy Demo.codec Demo.pruneIds Demo.repoA ∧
    Rebuild.Finished Demo.pruneIds false (Demo.clean Demo.repoA) ⟨Demo.repoA, left3⟩ ∧
    prunePlan Demo.codec Demo.env ⟨Demo.repoA, left3⟩ (Check.opened Demo.repoA) (Demo.snapsOf Demo.repoA) false =
      .ok (some plan3) ∧
    (∃ w', Finished (liveCfg Demo.pruneIds 4 plan3.start) ⟨Demo.repoA, left3⟩ plan3.main plan3.posts w') ∧
    ∀ w', Finished (liveCfg Demo.pruneIds 4 plan3.start) ⟨Demo.repoA, left3⟩ plan3.main plan3.posts w' →
      (Demo.pruneIds.snapId Demo.snapA, Demo.snapA) ∈ w'.repo.snapshots ∧
      ¬ Readable Demo.codec w'.repo Demo.snapA := by
  refine ⟨Demo.healthyA, rebuilt, plan3_eq, ?_, ?_⟩
  · obtain ⟨t, ht, hj⟩ := Check.run_finishes (cores := 4) (w := found3) Demo.healthyA run3 (Nat.le_refl 4)
    exact ⟨_, .mk t (by rw [main3]; exact ht) hj⟩
  · intro w' h
    cases h with
    | mk s hs hj =>
      rw [main3] at hs
      obtain ⟨h1, _⟩ := Check.run_sound (cores := 4) (w := found3) Demo.healthyA run3
      have hsn := (effect h1 (Check.run_reachable hs)).snaps
      have hp := Check.run_packs (w := found3) Demo.healthyA run3 hs
      simp only [liveCfg_ids]
      have posts3 := posts3
      have all3 := all3
      refine ⟨?_, Check.no_root C24.failing_ne ?_⟩
      · rw [snaps_post _ _ _ posts3, hsn]
        exact C24.failing_in
      · rintro b ⟨_, p, bs, _, hb, hin⟩
        exfalso
        have hk := BMap.mem_keys_of_mem hb
        obtain ⟨h2, h3⟩ := hp p bs (packs_post _ _ _ _ hb)
        rcases all3 bs h3 with h4 | h4
        · exact (gone _ _ posts3).2 p (.inl (by rw [h2]; exact h4)) hk
        · subst h4
          cases hin

end Backpak.C25
