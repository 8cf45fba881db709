import Verif.Props.C24

/-!
# C26 - Prune leaves nothing unreachable

What a finished prune leaves: one index, all of whose blobs some snapshot needs, each listed once
in a pack that is there; and pruning again finds nothing to do.
-/

namespace Backpak.C26

open Spec Pipeline

variable {Id : Type} [LinearOrder Id] {C : Codec Id} {env : CacheEnv Id} {ids : Ids Id} {cores : Nat}
  {src : Source Id} {snaps : List (Snap Id)} {plan : Plan Id} {w w' : World Id}

/-- What is known of the repository a finished prune leaves. -/
structure Left (C : Codec Id) (ids : Ids Id) (w : World Id) (src : Source Id) (R' : Repo Id) : Prop where
  healthy : Healthy C ids R'
  snaps : R'.snapshots = w.repo.snapshots
  holds : ∀ i sn d, (i, sn) ∈ w.repo.snapshots → Holds C w.repo sn.tree d → Holds C R' sn.tree d
  old : ∀ b, Has C R' b → Needed C w.repo b.id ∧ (Has C w.repo b ∨ b = emptyBlob C)
  one : ∃ i x, R'.indexes = [(i, x)] ∧ ¬ Superseded R'.indexes i
  packs : ∀ p m, Listed w.repo.indexes p m → p ∈ BMap.keys R'.packs → Listed R'.indexes p m
  stored : ∀ i sn u, (i, sn) ∈ w.repo.snapshots → Reaches (TreeAt C w.repo) sn.tree u → ∃ b, Has C R' b ∧ b.id = u

theorem left (hP : PruneOk C env ids w src snaps) (hN : PruneNoClash ids cores w plan)
    (hp : prunePlan C env w src snaps false = .ok (some plan))
    (h : Finished (liveCfg ids cores plan.start) w plan.main plan.posts w') : Left C ids w src w'.repo := by
  cases h with
  | mk s hs hj =>
    obtain ⟨a1, a2, a3⟩ := C24.always_readable_partial w _ hP hN hp
      (.after s plan.posts [] hs hj (List.append_nil _).symm)
    obtain ⟨c, reach, hpr⟩ := pruning hP hN hp
    have hids : c.ids = ids := by rw [hpr.cfg]
    have hr := hpr.reachable hs
    obtain ⟨x, news, hn, hdis, ht, hb⟩ := hpr.later hP hr hj (done := plan.posts) (rest := [])
      (List.append_nil _).symm
    have hgone := gone (ids := ids) plan.posts s.world.repo (by
      rw [hpr.posts, prunePosts]
      intro o ho sn
      rcases List.mem_append.mp ho with ho | ho <;> obtain ⟨_, _, rfl⟩ := List.mem_map.mp ho <;> simp)
    refine ⟨a1, a2, a3, fun b h => hpr.old ((hb b).mp ((ht.has b).mp h)), ?_, ?_,
      hpr.stored _ (fun b h => (ht.has b).mpr ((hb b).mpr h))⟩
    · refine ⟨ids.indexId x, x, ?_, ht.sole.live⟩
      have honly : ∀ e ∈ (plan.posts.foldl (applyPost ids) s.world.repo).indexes,
          e = (ids.indexId x, x) := by
        rintro ⟨j, y⟩ he
        have hone : j = ids.indexId x := by
          rcases ht.sole.others j y he with h | h
          · exact h
          · have hx : x.supersedes = BMap.keys w.repo.indexes := by
              rw [hn.sup, hpr.cfg]; exact hpr.sup
            rw [hx] at h
            refine absurd (BMap.mem_keys_of_mem he) (hgone.1 j (.inl ?_))
            rw [hpr.posts, prunePosts]
            exact List.mem_append_left _ (List.mem_map.mpr ⟨j, h, rfl⟩)
        subst hone
        have e1 := (BMap.get?_eq_some_iff ht.sound.indexes_sorted).mpr he
        have e2 := (BMap.get?_eq_some_iff ht.sound.indexes_sorted).mpr ht.sole.mem
        rw [e1] at e2
        cases e2
        rfl
      have hsort := ht.sound.indexes_sorted
      have hmem := ht.sole.mem
      simp only [liveCfg_ids] at hsort ⊢
      generalize (plan.posts.foldl (applyPost ids) s.world.repo).indexes = l at *
      cases l with
      | nil => cases hmem
      | cons a l =>
        rw [honly a List.mem_cons_self]
        cases l with
        | nil => rfl
        | cons b l =>
          have h1 := honly a List.mem_cons_self
          have h2 := honly b (List.mem_cons_of_mem _ List.mem_cons_self)
          subst h1
          rw [h2] at hsort
          simp [BMap.Sorted, BMap.keys] at hsort
    · intro p m hl hk
      have hopen := (opens_mem hP.healthy.sound hP.opens p m).mpr hl
      have hreuse : reusable reach m = true := by
        by_contra hne
        refine hgone.2 p (.inl ?_) hk
        rw [hpr.posts, prunePosts]
        refine List.mem_append_right _ (List.mem_map.mpr ⟨p, ?_, rfl⟩)
        exact BMap.mem_keys_of_mem (List.mem_filter.mpr ⟨hopen, by simpa using hne⟩)
      refine (ht.sole.listed ht.sound.indexes_sorted p m).mpr (hn.packs.symm.subset (List.mem_append_left _ ?_))
      rw [hpr.cfg]
      exact hpr.all _ (List.mem_filter.mpr ⟨hopen, hreuse⟩)

theorem Left.needed (h : Left C ids w src w'.repo) (hH : Healthy C ids w.repo) {i : Id}
    (hi : Needed C w.repo i) : Needed C w'.repo i :=
  (needed_kept hH.sound (fun b hb => (h.old b hb).2) h.snaps (fun j sn hm => by
    obtain ⟨d, hd⟩ := hH.readable j sn hm
    exact ⟨d, h.holds j sn d hm hd⟩) hi).1

/-- Every blob the live indexes list is needed by some snapshot. -/
theorem only_needed_partial (w w' : World Id) (hP : PruneOk C env ids w src snaps)
    (hN : PruneNoClash ids cores w plan) (hp : prunePlan C env w src snaps false = .ok (some plan))
    (h : Finished (liveCfg ids cores plan.start) w plan.main plan.posts w')
    (p : Id) (m : Manifest Id) (e : Entry Id) (hl : Listed w'.repo.indexes p m) (he : e ∈ m) :
    Needed C w'.repo e.id := by
  have hL := left hP hN hp h
  obtain ⟨bs, hb, rfl⟩ := hL.healthy.present p m hl
  obtain ⟨b, hb', rfl⟩ := List.mem_map.mp he
  have := (hL.healthy.sound.has_iff b).mpr ⟨p, bs, hl, hb, hb'⟩
  exact hL.needed hP.healthy (hL.old b this).1

/-- Every blob is listed once, and every listed pack is there. -/
theorem once_and_there_partial (w w' : World Id) (hP : PruneOk C env ids w src snaps)
    (hN : PruneNoClash ids cores w plan) (hp : prunePlan C env w src snaps false = .ok (some plan))
    (h : Finished (liveCfg ids cores plan.start) w plan.main plan.posts w') :
    (∀ p m, Listed w'.repo.indexes p m → (m.map Entry.id).Nodup ∧
      ∃ bs, (p, bs) ∈ w'.repo.packs ∧ m = Pack.manifestOf bs) ∧
    ∀ p m p' m' e e', Listed w'.repo.indexes p m → Listed w'.repo.indexes p' m' → e ∈ m → e' ∈ m' →
      e.id = e'.id → p = p' := by
  have hH := (left hP hN hp h).healthy
  refine ⟨fun p m hl => ⟨hH.distinct p m hl, ?_⟩, hH.once⟩
  obtain ⟨bs, h1, h2⟩ := hH.present p m hl
  exact ⟨bs, h1, h2.symm⟩

/-- One index is left, and no pack that was listed but is no longer. (Packs that no index listed,
which an interrupted run can leave, are not found, and stay.) -/
theorem cleans_up_partial (w w' : World Id) (hP : PruneOk C env ids w src snaps)
    (hN : PruneNoClash ids cores w plan) (hp : prunePlan C env w src snaps false = .ok (some plan))
    (h : Finished (liveCfg ids cores plan.start) w plan.main plan.posts w') :
    (∃ i x, w'.repo.indexes = [(i, x)]) ∧
    ∀ p m, Listed w.repo.indexes p m → p ∈ BMap.keys w'.repo.packs → Listed w'.repo.indexes p m := by
  have hL := left hP hN hp h
  obtain ⟨i, x, h1, _⟩ := hL.one
  exact ⟨⟨i, x, h1⟩, hL.packs⟩

/-- What can be found afterwards is what could be found before and some snapshot needs. (The empty
tree, which need not be stored, is stored if some snapshot has an empty directory.) -/
theorem exactly_partial (w w' : World Id) (hP : PruneOk C env ids w src snaps)
    (hN : PruneNoClash ids cores w plan) (hp : prunePlan C env w src snaps false = .ok (some plan))
    (h : Finished (liveCfg ids cores plan.start) w plan.main plan.posts w') (b : Blob Id)
    (hne : b.id ≠ C.emptyId) :
    Has C w'.repo b ↔ Has C w.repo b ∧ Needed C w.repo b.id := by
  have hL := left hP hN hp h
  constructor
  · intro hb
    obtain ⟨h1, h2⟩ := hL.old b hb
    refine ⟨h2.resolve_right ?_, h1⟩
    rintro rfl
    exact hne rfl
  · rintro ⟨hb, hn⟩
    obtain ⟨_, h1⟩ := needed_kept hP.healthy.sound (fun b hb => (hL.old b hb).2) hL.snaps (fun j sn hm => by
      obtain ⟨d, hd⟩ := hP.healthy.readable j sn hm
      exact ⟨d, hL.holds j sn d hm hd⟩) hn
    obtain ⟨b', h2, h3⟩ := h1.resolve_left hne
    rcases (hL.old b' h2).2 with h4 | rfl
    · rw [← hP.healthy.sound.has_one h4 hb h3]
      exact h2
    · exact absurd h3.symm hne

/-- A prune finds nothing to do exactly when every listed blob is needed. -/
theorem nothing_iff (w : World Id) (hP : PruneOk C env ids w src snaps) (dry : Bool) :
    prunePlan C env w src snaps dry = .ok none ↔
      ∀ p m e, Listed w.repo.indexes p m → e ∈ m → Needed C w.repo e.id := by
  have hS := hP.healthy.sound
  obtain ⟨sfs, h1⟩ := loadForests_ok hS hP.opens snaps
    (fun s hs => hP.healthy.readable _ _ ((hP.loaded _ _).mpr hs)) newTreeCache_ok
  have hre := reachable_iff hP h1
  have hnil : prunedPacks src (reachableBlobs sfs) = [] ↔
      ∀ p m e, Listed w.repo.indexes p m → e ∈ m → Needed C w.repo e.id := by
    unfold prunedPacks
    rw [List.filter_eq_nil_iff]
    constructor
    · intro h p m e hl he
      have := h (p, m) ((opens_mem hS hP.opens p m).mpr hl)
      simp only [Bool.not_eq_true', reusable, Bool.not_eq_false, List.all_eq_true,
        List.contains_iff_mem] at this
      exact (hre _).mp (this e he)
    · rintro h ⟨p, m⟩ hm
      simp only [Bool.not_eq_true', reusable, Bool.not_eq_false, List.all_eq_true,
        List.contains_iff_mem]
      exact fun e he => (hre _).mpr (h p m e ((opens_mem hS hP.opens p m).mp hm) he)
  rw [← hnil]
  constructor
  · intro h
    unfold prunePlan at h
    simp only [h1] at h
    split at h
    · rename_i hd
      simpa [prunedPacks] using hd
    · repeat' split at h
      all_goals cases h
  · intro h
    unfold prunePlan
    simp only [h1]
    unfold prunedPacks at h
    simp [h]

/-- So pruning again finds nothing to do, however the repository is loaded. -/
theorem again_partial (w w' : World Id) (hP : PruneOk C env ids w src snaps)
    (hN : PruneNoClash ids cores w plan) (hp : prunePlan C env w src snaps false = .ok (some plan))
    (h : Finished (liveCfg ids cores plan.start) w plan.main plan.posts w')
    (env' : CacheEnv Id) (he : C33.EnvOk env') (src' : Source Id) (ho : Opens w'.repo src')
    (snaps' : List (Snap Id)) (hs : ∀ i s, (i, s) ∈ w'.repo.snapshots ↔ (s, i) ∈ snaps') (dry : Bool) :
    prunePlan C env' w' src' snaps' dry = .ok none := by
  have hL := left hP hN hp h
  have hP' : PruneOk C env' ids w' src' snaps' := by
    refine ⟨he, hL.healthy, ((C24.leaves_nothing w w' hP hN hp h).2.prune (fun x hx => by
      rw [(C24.leaves_nothing w w' hP hN hp h).1] at hx; cases hx)), ho, hs, ?_⟩
    intro x hx
    rcases (hL.old _ hx).2 with h1 | h1
    · exact hP.noEmpty x h1
    · cases h1
  exact (nothing_iff w' hP' dry).mpr (only_needed_partial w w' hP hN hp h)

/-- The prune of `C24` on a repository with a forgotten snapshot has something to do. -/
example : PruneOk Demo.codec Demo.env Demo.pruneIds (Demo.clean Demo.repoA) (Check.opened Demo.repoA)
      (Demo.snapsOf Demo.repoA) ∧
    PruneNoClash Demo.pruneIds 4 (Demo.clean Demo.repoA) Demo.planA ∧
    prunePlan Demo.codec Demo.env (Demo.clean Demo.repoA) (Check.opened Demo.repoA)
      (Demo.snapsOf Demo.repoA) false = .ok (some Demo.planA) ∧
    ∃ w', Finished (liveCfg Demo.pruneIds 4 Demo.planA.start) (Demo.clean Demo.repoA) Demo.planA.main
      Demo.planA.posts w' ∧ Has Demo.codec Demo.repoA Demo.chunkB ∧ ¬ Has Demo.codec w'.repo Demo.chunkB := by
  refine ⟨Demo.pruneOkA, Demo.noClashA, Demo.planA_eq, ?_⟩
  obtain ⟨t, ht, hj⟩ := C24.finishes _ Demo.pruneOkA Demo.noClashA Demo.planA_eq (Nat.le_refl 4) BMap.sorted_nil _ .refl
  refine ⟨_, .mk t ht hj, Check.has_iff.mpr (by decide +kernel), fun hb => ?_⟩
  simp only [liveCfg_ids] at hb
  have hmain : Demo.planA.main = mainOf [] [Demo.chunkA, Demo.treeA] := by decide +kernel
  rw [hmain] at ht
  obtain ⟨_, h2⟩ := Check.run_trimmed (ops := Demo.planA.posts) (w := Demo.clean Demo.repoA) Demo.healthyA
    (by decide +kernel) (by decide +kernel) (by decide +kernel)
    (Demo.indexNew_of (by decide +kernel)) ht ((ctl ht).joinedUp hj) (by decide +kernel)
  have := h2 _ hb
  revert this
  decide +kernel

end Backpak.C26
