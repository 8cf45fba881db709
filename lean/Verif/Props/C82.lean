import Verif.Props.C30
import Verif.Props.C69

/-!
# C82 - Copying again copies what is missing and no more
-/

namespace Backpak.C82

open Spec Pipeline

variable {Id : Type} [LinearOrder Id] {C : Codec Id} {env : CacheEnv Id} {ids : Ids Id} {cores : Nat} {R : Repo Id}
  {from_ dst : Source Id} {snaps : List (Snap Id)} {filter : Path → Bool} {plan : Plan Id}

/-- A copy sends each blob once, and none whose ID a blob in the destination has. -/
theorem sends_new (w : World Id) (hC : CopyOk C env ids R w from_ dst snaps) (dry : Bool)
    (hp : copyPlan C env w from_ dst snaps filter dry = .ok plan) :
    ((sends plan.main).map Blob.id).Nodup ∧ ∀ b ∈ sends plan.main, ∀ b', Has C w.repo b' → b'.id ≠ b.id := by
  obtain ⟨rs, known, here, _, _, hk, hr, hm, _⟩ := copyPlan_ok hC hp
  obtain ⟨new, h1, _, h3, h4, _⟩ := offer_all (rs.flatMap Prod.snd) ⟨BMap.keys known ++ listedIds plan.start, []⟩
  have hs : sends plan.main = new := by
    rw [hm]
    simp only [List.nil_append] at h1
    rw [h1]
    cases dry with
    | true => exact sends_mainOf [] new
    | false => exact sends_mainOf here new
  rw [hs]
  refine ⟨h3, fun b hb b' hb' he => h4 b hb ?_⟩
  refine (packed_iff hC.healthy.sound hC.leftover hC.opens hk hr _).mpr ⟨b', ?_, he⟩
  obtain ⟨p, bs, g1, g2, g3⟩ := (hC.healthy.sound.has_iff b').mp hb'
  exact ⟨p, bs, .inl ⟨g1, g2⟩, g3⟩

omit [LinearOrder Id] in
theorem insert_same {K V : Type} [LinearOrder K] {m : BMap K V} (hs : BMap.Sorted m) {k : K} {v : V} (h : (k, v) ∈ m) :
    BMap.insert k v m = m := by
  refine BMap.ext_get? (BMap.sorted_insert hs k v) hs (fun x => ?_)
  rw [BMap.get?_insert hs]
  split
  · rename_i hx
    subst hx
    exact ((BMap.get?_eq_some_iff hs).mpr h).symm
  · rfl

theorem put_same (l : List (Snapshot Id)) {R : Repo Id} (hs : BMap.Sorted R.snapshots)
    (h : ∀ sn ∈ l, (ids.snapId sn, sn) ∈ R.snapshots) : (l.map Post.putSnap).foldl (applyPost ids) R = R := by
  induction l with
  | nil => rfl
  | cons a l ih =>
    rw [List.map_cons, List.foldl_cons]
    have : applyPost ids R (.putSnap a) = R := by
      show { R with snapshots := BMap.insert (ids.snapId a) a R.snapshots } = R
      rw [insert_same hs (h a List.mem_cons_self)]
    rw [this]
    exact ih (fun sn hm => h sn (List.mem_cons_of_mem _ hm))

/-- Once a copy has finished, copying the same again sends nothing, and at every instant the destination and the
working directory are as the first left them. -/
theorem again_partial (w w' : World Id) (hC : CopyOk C env ids R w from_ dst snaps)
    (hN : CopyNoClash C ids cores R w from_ snaps filter plan)
    (hp : copyPlan C env w from_ dst snaps filter false = .ok plan)
    (h : Finished (liveCfg ids cores plan.start) w plan.main plan.posts w')
    {dst' : Source Id} (ho : Opens w'.repo dst') {plan' : Plan Id}
    (hp' : copyPlan C env w' from_ dst' snaps filter false = .ok plan') :
    plan'.main = [] ∧
    ∀ w'', Instant (liveCfg ids cores plan'.start) w' plan'.main plan'.posts w'' → w'' = w' := by
  cases h with
  | mk s hs hj =>
  obtain ⟨h1, h2, h3, h4, rs, h5, _, _, h7, hfix⟩ := copy_run hC hN hp hs
  obtain ⟨known, here, hk, hr, hm, hpost⟩ := hfix _ _ _ _ hp'
  have hwip : s.world.cwd.wip = none := C14.joined_wip hs hj
  have hL' := puts_leftover (List.zipWith (fun (s : Snap Id) (r : Id × List (Blob Id)) => { s.1 with tree := r.1 }) snaps rs)
    h2
  have hH' : Healthy C ids (plan.posts.foldl (applyPost ids) s.world.repo) :=
    (C30.always_healthy_partial R w _ hC hN hp (.after s _ [] hs hj (List.append_nil _).symm)).1
  have hin : ∀ sn, .putSnap sn ∈ plan.posts → (ids.snapId sn, sn) ∈ (plan.posts.foldl (applyPost ids) s.world.repo).snapshots := by
    intro sn hsn
    rw [h5] at hsn ⊢
    obtain ⟨sn', hm', he⟩ := List.mem_map.mp hsn
    cases he
    refine (puts_snaps _ (R := s.world.repo) (ids := ids) h1.snapshots_sorted ?_).1 _ hm'
    have hsub : ∀ a ∈ List.zipWith (fun (s : Snap Id) (r : Id × List (Blob Id)) =>
        { s.1 with tree := r.1 }) snaps rs, .putSnap a ∈ plan.posts := by
      intro a ha; rw [h5]; exact List.mem_map.mpr ⟨a, ha, rfl⟩
    exact fun a ha b hb he => hN.snaps a (hsub a ha) b (.inl ⟨hsub b hb, he⟩)
  have hstart : plan'.start = Index.empty ∧ here = [] := by
    rcases resumeFrom_ok hr with ⟨_, h⟩ | ⟨h, _⟩
    · exact h
    · rw [hwip] at h; cases h
  obtain ⟨hst, hhere⟩ := hstart
  have hsent : ((rs.flatMap Prod.snd).foldl offer ⟨BMap.keys known ++ listedIds plan'.start, []⟩).sent = [] := by
    refine C69.sent_none (fun b hb => ?_)
    have hb' : Has C (plan.posts.foldl (applyPost ids) s.world.repo) b := by
      rw [h5]; exact puts_has _ (h7 hj b hb)
    obtain ⟨q, bs, g1, g2, g3⟩ := (hH'.sound.has_iff _).mp hb'
    exact (packed_iff hH'.sound (by rw [h5]; exact hL') ho hk hr _).mpr ⟨_, ⟨q, bs, .inl ⟨g1, g2⟩, g3⟩, rfl⟩
  have hmain : plan'.main = [] := by
    rw [hm, hsent, hhere]; rfl
  have hposts : plan'.posts = plan.posts := by
    rw [h5]
    unfold Plan.posts
    rw [hpost]
    rfl
  refine ⟨hmain, fun w'' hi => ?_⟩
  have hempty : (liveCfg ids cores plan'.start).start.isEmpty = true := by
    simp [hst, liveCfg, Index.isEmpty, Index.empty]
  rw [hmain, hposts] at hi
  cases hi with
  | during s' hs' => exact C69.idle (w := ⟨plan.posts.foldl (applyPost ids) s.world.repo, s.world.cwd⟩) hempty hwip hs'
  | after s' done rest hs' _ he =>
    rw [C69.idle (w := ⟨plan.posts.foldl (applyPost ids) s.world.repo, s.world.cwd⟩) hempty hwip hs']
    obtain ⟨l, l', _, g1, _⟩ := List.map_eq_append_iff.mp (h5.symm.trans he)
    subst g1
    have := put_same l hH'.snapshots_sorted (fun sn hsn => hin sn (by
      rw [he]; exact List.mem_append_left _ (List.mem_map.mpr ⟨sn, hsn, rfl⟩)))
    simp only [liveCfg_ids]
    rw [this]

/-- A copy of the snapshots that may have been cut short at any instant. -/
inductive Cut (C : Codec Id) (env : CacheEnv Id) (ids : Ids Id) (cores : Nat) (R : Repo Id) (from_ : Source Id)
    (snaps : List (Snap Id)) (filter : Path → Bool) (w w' : World Id) : Prop
  | mk (dst : Source Id) (plan : Plan Id) : Opens w.repo dst → CopyNoClash C ids cores R w from_ snaps filter plan →
      copyPlan C env w from_ dst snaps filter false = .ok plan →
      Instant (liveCfg ids cores plan.start) w plan.main plan.posts w' → Cut C env ids cores R from_ snaps filter w w'

/-- Whatever came of any number of copies cut short, each snapshot that was in the destination still is and can be read
as before, and the next copy can start. -/
theorem cut_short_partial {w w' : World Id} (hC : CopyOk C env ids R w from_ dst snaps)
    (h : Relation.ReflTransGen (Cut C env ids cores R from_ snaps filter) w w') :
    (∀ i sn, (i, sn) ∈ w.repo.snapshots → (i, sn) ∈ w'.repo.snapshots) ∧
    (∀ i d, Holds C w.repo i d → Holds C w'.repo i d) ∧
    ∀ dst', Opens w'.repo dst' → CopyOk C env ids R w' from_ dst' snaps ∧
      ∃ plan, copyPlan C env w' from_ dst' snaps filter false = .ok plan := by
  have key : Healthy C ids w'.repo ∧ Leftover C ids w' ∧
      (∀ i sn, (i, sn) ∈ w.repo.snapshots → (i, sn) ∈ w'.repo.snapshots) ∧
      ∀ i d, Holds C w.repo i d → Holds C w'.repo i d := by
    induction h with
    | refl => exact ⟨hC.healthy, hC.leftover, fun _ _ h => h, fun _ _ h => h⟩
    | tail _ hs ih =>
      obtain ⟨i1, i2, i3, i4⟩ := ih
      obtain ⟨dst', plan, ho, hN, hp, hi⟩ := hs
      obtain ⟨g1, g2, g3, g4⟩ := C30.always_healthy_partial R _ _
        ⟨hC.clock, hC.source, hC.fromOpens, hC.loaded, i1, i2, ho⟩ hN hp hi
      exact ⟨g1, g2, fun i sn h => g3 i sn (i3 i sn h), fun i d h => g4 i d (i4 i d h)⟩
  obtain ⟨k1, k2, k3, k4⟩ := key
  refine ⟨k3, k4, fun dst' ho => ?_⟩
  have hC' : CopyOk C env ids R w' from_ dst' snaps := ⟨hC.clock, hC.source, hC.fromOpens, hC.loaded, k1, k2, ho⟩
  exact ⟨hC', copy_succeeds hC' filter false⟩

/-- And once one finishes, all is copied. -/
theorem finished_after_cuts_partial {w w' w'' : World Id} (hC : CopyOk C env ids R w from_ dst snaps)
    (h : Relation.ReflTransGen (Cut C env ids cores R from_ snaps filter) w w') {dst' : Source Id} (ho : Opens w'.repo dst')
    (hN : CopyNoClash C ids cores R w' from_ snaps filter plan)
    (hp : copyPlan C env w' from_ dst' snaps filter false = .ok plan)
    (hf : Finished (liveCfg ids cores plan.start) w' plan.main plan.posts w'') :
    (∀ i sn, (i, sn) ∈ w.repo.snapshots → (i, sn) ∈ w''.repo.snapshots) ∧
    (∀ i d, Holds C w.repo i d → Holds C w''.repo i d) ∧
    ∀ s ∈ snaps, ∃ d root, Holds C R s.1.tree d ∧
      (ids.snapId { s.1 with tree := root }, { s.1 with tree := root }) ∈ w''.repo.snapshots ∧
      Holds C w''.repo root (keep filter (fun n => [n]) d) := by
  obtain ⟨k3, k4, k⟩ := cut_short_partial hC h
  obtain ⟨hC', _⟩ := k dst' ho
  have hi : Instant (liveCfg ids cores plan.start) w' plan.main plan.posts w'' := by
    cases hf with
    | mk s hs hj => exact .after s _ [] hs hj (List.append_nil _).symm
  obtain ⟨_, _, g3, g4⟩ := C30.always_healthy_partial R _ _ hC' hN hp hi
  refine ⟨fun i sn h => g3 i sn (k3 i sn h), fun i d h => g4 i d (k4 i d h), fun s hs => ?_⟩
  obtain ⟨d, root, g1, g2, g3, _⟩ := C30.copied_partial R _ _ hC' hN hp hf s hs
  exact ⟨d, root, g1, g2, g3⟩

/-! ## Example -/

/-- Two snapshots copied to an empty repository, one of them less its only file; then again. -/
example : CopyOk Demo.codec Demo.env Demo.pruneIds Demo.repoAB Demo.world0 (Check.opened Demo.repoAB) Demo.src0
      (Demo.snapsOf Demo.repoAB) ∧
    CopyNoClash Demo.codec Demo.pruneIds 4 Demo.repoAB Demo.world0 (Check.opened Demo.repoAB)
      (Demo.snapsOf Demo.repoAB) C30.noB C30.plan1 ∧
    copyPlan Demo.codec Demo.env Demo.world0 (Check.opened Demo.repoAB) Demo.src0
      (Demo.snapsOf Demo.repoAB) C30.noB false = .ok C30.plan1 ∧ (sends C30.plan1.main).length = 3 ∧
    ∃ w', Finished (liveCfg Demo.pruneIds 4 C30.plan1.start) Demo.world0 C30.plan1.main C30.plan1.posts w' ∧
      Opens w'.repo (Check.opened w'.repo) ∧ ∃ plan', copyPlan Demo.codec Demo.env w' (Check.opened Demo.repoAB)
        (Check.opened w'.repo) (Demo.snapsOf Demo.repoAB) C30.noB false = .ok plan' := by
  have hC := C30.copyOk_of Demo.healthyAB
  refine ⟨hC, C30.noClash1, C30.plan1_eq, by decide +kernel, ?_⟩
  obtain ⟨t, ht, hj⟩ := C30.finishes _ _ hC C30.noClash1 C30.plan1_eq (Nat.le_refl 4) BMap.sorted_nil _ .refl
  have hi : Instant (liveCfg Demo.pruneIds 4 C30.plan1.start) Demo.world0 C30.plan1.main C30.plan1.posts
      ⟨C30.plan1.posts.foldl (applyPost Demo.pruneIds) t.world.repo, t.world.cwd⟩ :=
    .after t _ [] ht hj (List.append_nil _).symm
  obtain ⟨h1, h2, _⟩ := C30.always_healthy_partial _ _ _ hC C30.noClash1 C30.plan1_eq hi
  refine ⟨_, .mk t ht hj, Check.opened_opens h1, ?_⟩
  exact copy_succeeds ⟨hC.clock, hC.source, hC.fromOpens, hC.loaded, h1, h2, Check.opened_opens h1⟩ _ _

/-- The same copy cut short when all data is there and no snapshot. -/
example : ∃ w', Relation.ReflTransGen (Cut Demo.codec Demo.env Demo.pruneIds 4 Demo.repoAB (Check.opened Demo.repoAB)
    (Demo.snapsOf Demo.repoAB) C30.noB) Demo.world0 w' ∧ w'.repo.snapshots = [] ∧ w'.repo.packs ≠ [] := by
  have hC := C30.copyOk_of Demo.healthyAB
  obtain ⟨t, ht, hj⟩ := C30.finishes _ _ hC C30.noClash1 C30.plan1_eq (Nat.le_refl 4) BMap.sorted_nil _ .refl
  obtain ⟨_, _, h3, _, rs, h5, _, _, h7, hfix⟩ := copy_run hC C30.noClash1 C30.plan1_eq ht
  refine ⟨_, .single (.mk Demo.src0 C30.plan1 Demo.opens0 C30.noClash1 C30.plan1_eq
    (.after t [] C30.plan1.posts ht hj (List.nil_append _).symm)), h3, fun h0 => ?_⟩
  obtain ⟨known, here, _, _, hm, _⟩ := hfix _ _ _ _ C30.plan1_eq
  have hne : (sends C30.plan1.main).length = 3 := by decide +kernel
  cases hr : rs.flatMap Prod.snd with
  | nil =>
    rw [hm, hr] at hne
    have : sends (mainOf here ([] : List (Blob ObjectId))) = [] := sends_mainOf here []
    rw [show sends ((if false = true then [] else here.map Op.up) ++ List.map Op.send (List.foldl offer
      ⟨BMap.keys known ++ listedIds C30.plan1.start, []⟩ ([] : List (Blob ObjectId))).sent) = [] from this] at hne
    cases hne
  | cons b l =>
    obtain ⟨_, q, bs, _, h1, _⟩ := h7 hj b (by rw [hr]; exact List.mem_cons_self)
    have h0 : t.world.repo.packs = [] := h0
    rw [h0] at h1
    cases h1

end Backpak.C82
