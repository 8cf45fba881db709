import Verif.Model.Copy
import Verif.Lemmas.Prune
import Verif.Lemmas.Backup
import Verif.Lemmas.Finish

/-!
# What a copy does
-/

namespace Backpak

open Spec Pipeline

variable {Id : Type} [LinearOrder Id]

/-- What copies are assumed to work with: a source repository in good order, opened, and snapshots
of it; and a destination in good order, opened, with whatever an interrupted backup or copy left
in the working directory. -/
structure CopyOk (C : Codec Id) (env : CacheEnv Id) (ids : Ids Id) (R : Repo Id) (w : World Id)
    (from_ dst : Source Id) (snaps : List (Snap Id)) : Prop where
  clock : C33.EnvOk env
  source : Healthy C ids R
  fromOpens : Opens R from_
  loaded : ∀ s ∈ snaps, (s.2, s.1) ∈ R.snapshots
  healthy : Healthy C ids w.repo
  leftover : Leftover C ids w
  opens : Opens w.repo dst

/-- The trees of the copied snapshots, less what is skipped. -/
def copyTrees (C : Codec Id) (from_ : Source Id) (snaps : List (Snap Id)) (filter : Path → Bool) :
    List (Blob Id) :=
  match loadForests C from_ (newTreeCache C) snaps with
  | .error _ => []
  | .ok sfs => sfs.flatMap (fun e => (filterTree C filter e.2 (e.2.length + 1) [] e.1.1.tree).2)

/-- No two blobs, packs, indexes or snapshots that take part have one ID, and the new index does
not have the ID of one that was superseded. -/
structure CopyNoClash (C : Codec Id) (ids : Ids Id) (cores : Nat) (R : Repo Id) (w : World Id)
    (from_ : Source Id) (snaps : List (Snap Id)) (filter : Path → Bool) (plan : Plan Id) : Prop where
  blobs : Unmixed C (fun b => Stored w b ∨ Has C R b ∨ b ∈ copyTrees C from_ snaps filter)
  packs : PacksDiffer ids w plan.main
  indexes : IndexOk (liveCfg ids cores plan.start) w.repo (sends plan.main)
  snaps : ∀ sn, .putSnap sn ∈ plan.posts → ∀ sn',
    (.putSnap sn' ∈ plan.posts ∧ ids.snapId sn' = ids.snapId sn) ∨ (ids.snapId sn, sn') ∈ w.repo.snapshots →
    sn' = sn

variable {C : Codec Id} {env : CacheEnv Id} {ids : Ids Id} {cores : Nat} {R : Repo Id} {w : World Id}
  {from_ dst : Source Id} {snaps : List (Snap Id)} {filter : Path → Bool} {dry : Bool} {plan : Plan Id}

/-- `rs` are the new roots and the blobs offered whenever these snapshots are copied, wherever to. -/
def Fixed (C : Codec Id) (env : CacheEnv Id) (from_ : Source Id) (snaps : List (Snap Id)) (filter : Path → Bool)
    (rs : List (Id × List (Blob Id))) : Prop :=
  ∀ (w : World Id) (dst : Source Id) (dry : Bool) (plan : Plan Id),
    copyPlan C env w from_ dst snaps filter dry = .ok plan → ∃ (known : BMap Id Unit) (here : List Id),
      Index.blobIds dst.index = .ok known ∧ resumeFrom w = .ok (plan.start, here) ∧
      plan.main = (if dry then [] else here.map Op.up) ++
        ((rs.flatMap Prod.snd).foldl offer ⟨BMap.keys known ++ listedIds plan.start, []⟩).sent.map Op.send ∧
      plan.post = .ok (if dry then [] else
        (List.zipWith (fun s r => { s.1 with tree := r.1 }) snaps rs).map Post.putSnap)

/-- What is behind a plan: for each snapshot, a new root and blobs. -/
theorem copyPlan_all (hC : CopyOk C env ids R w from_ dst snaps)
    (h : copyPlan C env w from_ dst snaps filter dry = .ok plan) :
    ∃ rs : List (Id × List (Blob Id)),
      List.Forall₂ (fun s r => ∃ d, Holds C R s.1.tree d ∧ RepackedAs C R filter s.1.tree d r.2 r.1) snaps rs ∧
      (∀ b ∈ rs.flatMap Prod.snd, WellMade C b ∧ (Has C R b ∨ b ∈ copyTrees C from_ snaps filter)) ∧
      Fixed C env from_ snaps filter rs := by
  have hS := hC.source.sound
  unfold copyPlan at h
  split at h
  · cases h
  · rename_i sfs hsfs
    clear h
    obtain ⟨h1, h2⟩ := loadForests_sound hS hC.fromOpens snaps newTreeCache_ok hsfs
    have hin : ∀ e ∈ sfs, (e.1.2, e.1.1) ∈ R.snapshots := by
      intro e he
      refine hC.loaded e.1 ?_
      rw [← h1]
      exact List.mem_map.mpr ⟨e, he, rfl⟩
    obtain ⟨rs, h3, h4⟩ := walkSnapshots_ok hC.clock hS hC.fromOpens filter sfs
      (fun e he => (h2 e he).1) (fun e he => hC.source.readable _ _ (hin e he))
    refine ⟨rs, ?_, ?_, ?_⟩
    · rw [← h1, List.forall₂_map_left_iff]
      exact h3.imp (fun e r ⟨d, hd, hrep, _⟩ => ⟨d, hd, hrep⟩)
    · intro b hb
      obtain ⟨q, hq, hb⟩ := List.mem_flatMap.mp hb
      obtain ⟨e, he, d, _, hrep, _, htr⟩ := forall₂_right h3 q hq
      refine ⟨(hrep.made b hb).1, ?_⟩
      cases hkd : b.kind with
      | chunk => exact .inl ((hrep.made b hb).2 hkd)
      | tree =>
        right
        unfold copyTrees
        rw [hsfs]
        exact List.mem_flatMap.mpr ⟨e, he, (htr b).mp ⟨hb, hkd⟩⟩
    · intro w dst dry plan h
      unfold copyPlan at h
      rw [hsfs] at h
      dsimp only at h
      split at h
      · cases h
      · rename_i known hk
        split at h
        · cases h
        · rename_i start here hr
          obtain ⟨r', h5, _⟩ := h4 ⟨BMap.keys known ++ listedIds start, []⟩ ReaderState.new C33.settled_new
          rw [h5] at h
          simp only [Except.ok.injEq] at h
          subst h
          refine ⟨known, here, hk, hr, rfl, ?_⟩
          simp only
          congr 1
          cases dry with
          | true => rfl
          | false =>
            simp only [Bool.false_eq_true, if_false]
            congr 1
            rw [← h1, List.zipWith_map_left]

theorem copyPlan_ok (hC : CopyOk C env ids R w from_ dst snaps)
    (h : copyPlan C env w from_ dst snaps filter dry = .ok plan) :
    ∃ (rs : List (Id × List (Blob Id))) (known : BMap Id Unit) (here : List Id),
      List.Forall₂ (fun s r => ∃ d, Holds C R s.1.tree d ∧ RepackedAs C R filter s.1.tree d r.2 r.1) snaps rs ∧
      (∀ b ∈ rs.flatMap Prod.snd, WellMade C b ∧ (Has C R b ∨ b ∈ copyTrees C from_ snaps filter)) ∧
      Index.blobIds dst.index = .ok known ∧ resumeFrom w = .ok (plan.start, here) ∧
      plan.main = (if dry then [] else here.map Op.up) ++
        ((rs.flatMap Prod.snd).foldl offer ⟨BMap.keys known ++ listedIds plan.start, []⟩).sent.map Op.send ∧
      plan.post = .ok (if dry then [] else
        (List.zipWith (fun s r => { s.1 with tree := r.1 }) snaps rs).map Post.putSnap) := by
  obtain ⟨rs, h1, h2, h3⟩ := copyPlan_all hC h
  obtain ⟨known, here, h4⟩ := h3 _ _ _ _ h
  exact ⟨rs, known, here, h1, h2, h4⟩

/-- What a copy that is not a dry run does up to the operations after the join. -/
theorem copy_run (hC : CopyOk C env ids R w from_ dst snaps)
    (hN : CopyNoClash C ids cores R w from_ snaps filter plan)
    (hp : copyPlan C env w from_ dst snaps filter false = .ok plan)
    {s : State Id} (h : Reachable (liveCfg ids cores plan.start) w plan.main s) :
    Healthy C ids s.world.repo ∧ Leftover C ids s.world ∧ s.world.repo.snapshots = w.repo.snapshots ∧
    (∀ b, Has C w.repo b → Has C s.world.repo b) ∧
    ∃ rs : List (Id × List (Blob Id)),
      plan.posts = (List.zipWith (fun s r => { s.1 with tree := r.1 }) snaps rs).map Post.putSnap ∧
      snaps.length = rs.length ∧
      (s.joined = true → List.Forall₂ (fun sn r => ∃ d, Holds C R sn.1.tree d ∧
        RepackedAs C R filter sn.1.tree d r.2 r.1 ∧
        Holds C s.world.repo r.1 (keep filter (fun n => [n]) d)) snaps rs) ∧
      (s.joined = true → ∀ b ∈ rs.flatMap Prod.snd, Has C s.world.repo b) ∧ Fixed C env from_ snaps filter rs := by
  obtain ⟨rs, h1, h2, hfix⟩ := copyPlan_all hC hp
  obtain ⟨known, here, hk, hr, hm, hpost⟩ := hfix _ _ _ _ hp
  have hu : Unmixed C (fun b => Stored w b ∨ b ∈ rs.flatMap Prod.snd) := by
    have hsub : ∀ b, (Stored w b ∨ b ∈ rs.flatMap Prod.snd) →
        (Stored w b ∨ Has C R b ∨ b ∈ copyTrees C from_ snaps filter) :=
      fun b hb => hb.imp (fun e => e) (fun hb => (h2 b hb).2)
    exact ⟨fun b b' hb hb' => hN.blobs.hash b b' (hsub b hb) (hb'.imp (hsub b') (fun e => e)),
      fun b b' hb hb' => hN.blobs.kind b b' (hsub b hb) (hsub b' hb')⟩
  obtain ⟨hfresh, hall⟩ := offer_fresh hC.leftover
    (packed_iff hC.healthy.sound hC.leftover hC.opens hk hr) (fun b hb => (h2 b hb).1) hu
  have hmain : plan.main = mainOf here
      ((rs.flatMap Prod.snd).foldl offer ⟨BMap.keys known ++ listedIds plan.start, []⟩).sent := by
    rw [hm]; rfl
  have hpk := hN.packs
  have hix := hN.indexes
  rw [hmain] at hpk h
  rw [hmain, sends_mainOf] at hix
  obtain ⟨g1, g2, g3, g4, g5⟩ := add_run hC.healthy hC.leftover hr hfresh hpk hix h
  have hhas : s.joined = true → ∀ b ∈ rs.flatMap Prod.snd, Has C s.world.repo b := by
    intro hj b hb
    refine g5 hj b ?_
    rcases hall b hb with ⟨p, bs, h1, h2⟩ | h1
    · exact .inr ⟨p, bs, h1, h2⟩
    · exact .inl h1
  refine ⟨g1, g2, g3, g4, rs, ?_, h1.length_eq, fun hj => ?_, hhas, hfix⟩
  · unfold Plan.posts
    rw [hpost]
    rfl
  · have hhas := hhas hj
    have : ∀ (l : List (Snap Id)) (rs' : List (Id × List (Blob Id))), (∀ q ∈ rs', q ∈ rs) →
        List.Forall₂ (fun s r => ∃ d, Holds C R s.1.tree d ∧ RepackedAs C R filter s.1.tree d r.2 r.1) l rs' →
        List.Forall₂ (fun sn r => ∃ d, Holds C R sn.1.tree d ∧ RepackedAs C R filter sn.1.tree d r.2 r.1 ∧
          Holds C s.world.repo r.1 (keep filter (fun n => [n]) d)) l rs' := by
      intro l rs' hsub hl
      induction hl with
      | nil => exact .nil
      | cons hd _ ih =>
        obtain ⟨d, hd, hrep⟩ := hd
        refine .cons ⟨d, hd, hrep, hrep.holds _ (fun b hb => .inr (hhas b ?_))⟩
          (ih (fun q hq => hsub q (List.mem_cons_of_mem _ hq)))
        exact List.mem_flatMap.mpr ⟨_, hsub _ List.mem_cons_self, hb⟩
    exact this snaps rs (fun q hq => hq) h1

/-- With a destination that can be resumed, a copy gets as far as starting its threads. -/
theorem copy_succeeds (hC : CopyOk C env ids R w from_ dst snaps) (filter : Path → Bool) (dry : Bool) :
    ∃ plan, copyPlan C env w from_ dst snaps filter dry = .ok plan := by
  have hS := hC.source.sound
  obtain ⟨sfs, h1⟩ := loadForests_ok hS hC.fromOpens snaps
    (fun s hs => hC.source.readable _ _ (hC.loaded s hs)) newTreeCache_ok
  obtain ⟨h2, h3⟩ := loadForests_sound hS hC.fromOpens snaps newTreeCache_ok h1
  have hin : ∀ e ∈ sfs, (e.1.2, e.1.1) ∈ R.snapshots := by
    intro e he
    refine hC.loaded e.1 ?_
    rw [← h2]
    exact List.mem_map.mpr ⟨e, he, rfl⟩
  obtain ⟨rs, _, h4⟩ := walkSnapshots_ok hC.clock hS hC.fromOpens filter sfs
    (fun e he => (h3 e he).1) (fun e he => hC.source.readable _ _ (hin e he))
  have hblob : (blobsListed dst.index.packs).Nodup := (C18.refused_iff dst.index).1.mp ⟨_, hC.opens.blobMap⟩
  obtain ⟨known, h5⟩ := (C18.refused_iff dst.index).2.1.mpr hblob
  obtain ⟨r, h6⟩ := (C14.accepted_iff w).mpr (by
    intro x hx p hp
    obtain ⟨m, hm⟩ := BMap.mem_keys_iff.mp hp
    obtain ⟨bs, hb, _⟩ := hC.leftover.there x p m hx (BMap.mem_of_get? hm)
    exact hb.imp BMap.mem_keys_of_mem BMap.mem_keys_of_mem)
  obtain ⟨⟨start, here⟩, h7⟩ : ∃ q, resumeFrom w = .ok q := by
    unfold resumeFrom
    rw [h6]
    exact ⟨_, rfl⟩
  obtain ⟨r', h8, _⟩ := h4 ⟨BMap.keys known ++ listedIds start, []⟩ ReaderState.new C33.settled_new
  unfold copyPlan
  simp only [h1, h5, h7, h8]
  exact ⟨_, rfl⟩

/-- Adding readable snapshots one after another. -/
theorem puts_healthy (l : List (Snapshot Id)) {R : Repo Id} (h : Healthy C ids R)
    (hr : ∀ sn ∈ l, Readable C R sn) :
    Healthy C ids ((l.map Post.putSnap).foldl (applyPost ids) R) := by
  induction l generalizing R with
  | nil => exact h
  | cons sn l ih =>
    rw [List.map_cons, List.foldl_cons]
    refine ih (healthy_put h (hr sn List.mem_cons_self)) (fun sn' hs => ?_)
    obtain ⟨d, hd⟩ := hr sn' (List.mem_cons_of_mem _ hs)
    exact ⟨d, holds_snaps hd⟩

theorem puts_leftover (l : List (Snapshot Id)) {w : World Id} (h : Leftover C ids w) :
    Leftover C ids ⟨(l.map Post.putSnap).foldl (applyPost ids) w.repo, w.cwd⟩ := by
  induction l generalizing w with
  | nil => exact h
  | cons sn l ih =>
    rw [List.map_cons, List.foldl_cons]
    exact ih (w := ⟨applyPost ids w.repo (.putSnap sn), w.cwd⟩) ⟨h.names, h.sup, h.sorted, h.there, h.ledger⟩

/-- They touch only snapshots. -/
theorem puts_has (l : List (Snapshot Id)) {R : Repo Id} {b : Blob Id} (h : Has C R b) :
    Has C ((l.map Post.putSnap).foldl (applyPost ids) R) b := by
  induction l generalizing R with
  | nil => exact h
  | cons sn l ih => rw [List.map_cons, List.foldl_cons]; exact ih (R := applyPost ids R (.putSnap sn)) h

/-- What is there afterwards. -/
theorem puts_snaps (l : List (Snapshot Id)) {R : Repo Id} (hs : BMap.Sorted R.snapshots)
    (hone : ∀ sn ∈ l, ∀ sn' ∈ l, ids.snapId sn' = ids.snapId sn → sn' = sn) :
    (∀ sn ∈ l, (ids.snapId sn, sn) ∈ ((l.map Post.putSnap).foldl (applyPost ids) R).snapshots) ∧
    ∀ i sn, (i, sn) ∈ R.snapshots → (∀ sn' ∈ l, ids.snapId sn' = i → sn' = sn) →
      (i, sn) ∈ ((l.map Post.putSnap).foldl (applyPost ids) R).snapshots := by
  induction l generalizing R with
  | nil => exact ⟨by simp, fun i sn h _ => h⟩
  | cons a l ih =>
    rw [List.map_cons, List.foldl_cons]
    have hs' : BMap.Sorted (applyPost ids R (.putSnap a)).snapshots := BMap.sorted_insert hs _ _
    obtain ⟨i1, i2⟩ := ih hs' (fun sn h sn' h' => hone sn (List.mem_cons_of_mem _ h) sn' (List.mem_cons_of_mem _ h'))
    refine ⟨fun sn hsn => ?_, fun i sn hi hok => ?_⟩
    · rcases List.mem_cons.mp hsn with rfl | hsn
      · refine i2 _ _ ((BMap.mem_insert_iff hs).mpr (.inl ⟨rfl, rfl⟩)) (fun sn' h he => ?_)
        exact hone _ List.mem_cons_self sn' (List.mem_cons_of_mem _ h) he
      · exact i1 sn hsn
    · refine i2 i sn ?_ (fun sn' h he => hok sn' (List.mem_cons_of_mem _ h) he)
      by_cases hia : i = ids.snapId a
      · subst hia
        have := hok a List.mem_cons_self rfl
        subst this
        exact (BMap.mem_insert_iff hs).mpr (.inl ⟨rfl, rfl⟩)
      · exact (BMap.mem_insert_iff hs).mpr (.inr ⟨hia, hi⟩)

end Backpak
