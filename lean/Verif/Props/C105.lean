import Verif.Lemmas.RepackReused
import Verif.Props.C103
import Verif.Props.C30
import Verif.Props.C25

/-!
# C105 - What a copy or a prune shows as new and as reused adds up

`copyReused` and `pruneReused` are the bytes shown after `R` when the walk has ended; the bytes packed are
the length of the blobs sent, `sends plan.main`. `GoneThrough` says what there was to go through.
-/

namespace Backpak.C105

open Spec Pipeline C103

variable {Id : Type} [LinearOrder Id] {C : Codec Id} {ids : Ids Id} {env : CacheEnv Id} {R : Repo Id}
  {from_ dst src : Source Id} {snaps : List (Snap Id)} {filter : Path → Bool} {dry : Bool} {plan : Plan Id}

/-! ## Copying -/

/-- There is a count whenever the walk succeeds, and the snapshots are those the copy saves. -/
theorem copy_counts (w : World Id) (hp : copyPlan C env w from_ dst snaps filter dry = .ok plan) :
    ∃ news r, copyReused C env w from_ dst snaps filter = .ok (news, r) ∧
      plan.post = .ok (if dry then [] else news.map Post.putSnap) := by
  unfold copyPlan at hp
  unfold copyReused
  cases h1 : loadForests C from_ (newTreeCache C) snaps with
  | error e => rw [h1] at hp; cases hp
  | ok sfs =>
    cases h2 : Index.blobIds dst.index with
    | error e => simp only [h1, h2] at hp; cases hp
    | ok known =>
      cases h3 : resumeFrom w with
      | error e => simp only [h1, h2, h3] at hp; cases hp
      | ok v =>
        have h := snapshots_project (C := C) (src := from_) (env := env) (filter := filter) sfs
          ((⟨BMap.keys known ++ listedIds v.1, []⟩, ReaderState.new), 0)
        simp only at h
        simp only [h1, h2, h3, h] at hp ⊢
        cases h4 : snapshotsCounted C from_ env filter sfs
            ((⟨BMap.keys known ++ listedIds v.1, []⟩, ReaderState.new), 0) with
        | error e => rw [h4] at hp; cases hp
        | ok u =>
          rw [h4] at hp
          cases hp
          exact ⟨_, _, rfl, rfl⟩

/-- If the walk fails, it fails. -/
theorem copy_fails (w : World Id) (e : Fail) (hp : copyPlan C env w from_ dst snaps filter dry = .error e) :
    copyReused C env w from_ dst snaps filter = .error e := by
  unfold copyPlan at hp
  unfold copyReused
  cases h1 : loadForests C from_ (newTreeCache C) snaps with
  | error e => rw [h1] at hp; cases hp; rfl
  | ok sfs =>
    cases h2 : Index.blobIds dst.index with
    | error e => simp only [h1, h2] at hp; cases hp; rfl
    | ok known =>
      cases h3 : resumeFrom w with
      | error e => simp only [h1, h2, h3] at hp; cases hp; rfl
      | ok v =>
        have h := snapshots_project (C := C) (src := from_) (env := env) (filter := filter) sfs
          ((⟨BMap.keys known ++ listedIds v.1, []⟩, ReaderState.new), 0)
        simp only at h
        simp only [h1, h2, h3, h] at hp ⊢
        cases h4 : snapshotsCounted C from_ env filter sfs
            ((⟨BMap.keys known ++ listedIds v.1, []⟩, ReaderState.new), 0) with
        | error e => rw [h4] at hp; cases hp; rfl
        | ok u => rw [h4] at hp; cases hp

/-- The bytes sent and the bytes reused are together the bytes of what is kept of the files of the snapshots and of
the trees of the new ones. -/
theorem copy_adds_up (w : World Id) (hC : CopyOk C env ids R w from_ dst snaps)
    (hp : copyPlan C env w from_ dst snaps filter dry = .ok plan) (news : List (Snapshot Id)) (r : Nat)
    (hr : copyReused C env w from_ dst snaps filter = .ok (news, r)) :
    GoneThrough C R filter snaps news (bytesOf (sends plan.main) + r) := by
  unfold copyPlan at hp
  unfold copyReused at hr
  cases h1 : loadForests C from_ (newTreeCache C) snaps with
  | error e => rw [h1] at hp; cases hp
  | ok sfs =>
    cases h2 : Index.blobIds dst.index with
    | error e => simp only [h1, h2] at hp; cases hp
    | ok known =>
      cases h3 : resumeFrom w with
      | error e => simp only [h1, h2, h3] at hp; cases hp
      | ok v =>
        have h := snapshots_project (C := C) (src := from_) (env := env) (filter := filter) sfs
          ((⟨BMap.keys known ++ listedIds v.1, []⟩, ReaderState.new), 0)
        simp only at h
        simp only [h1, h2, h3, h] at hp hr
        cases h4 : snapshotsCounted C from_ env filter sfs
            ((⟨BMap.keys known ++ listedIds v.1, []⟩, ReaderState.new), 0) with
        | error e => rw [h4] at hp; cases hp
        | ok u =>
          rw [h4] at hp hr
          cases hp
          cases hr
          obtain ⟨g1, g2⟩ := loadForests_sound hC.source.sound hC.fromOpens snaps newTreeCache_ok h1
          have hin : ∀ e ∈ sfs, (e.1.2, e.1.1) ∈ R.snapshots := by
            intro e he
            refine hC.loaded e.1 ?_
            rw [← g1]
            exact List.mem_map.mpr ⟨e, he, rfl⟩
          obtain ⟨n, g3, g4⟩ := snapshots_sum hC.clock hC.source.sound hC.fromOpens sfs _ _ _
            (fun e he => hC.source.readable _ _ (hin e he))
            (fun e he id t ht => (((g2 e he).1 id t).mp ht).2) C33.settled_new h4
          rw [g1] at g3
          rw [sends_ups]
          have : bytesOf u.2.1.1.sent + u.2.2 = n := by
            simpa [repackTotal, bytesOf] using g4
          rwa [this]

/-! ## Pruning -/

/-- There is a count whenever the walk succeeds and there is something to do. -/
theorem prune_counts (w : World Id) (o : Option (Plan Id)) (hp : prunePlan C env w src snaps dry = .ok o) :
    ∃ o', pruneReused C env w src snaps = .ok o' ∧ o'.isSome = o.isSome := by
  unfold prunePlan at hp
  unfold pruneReused
  cases h1 : loadForests C src (newTreeCache C) snaps with
  | error e => rw [h1] at hp; cases hp
  | ok sfs =>
    simp only [h1] at hp ⊢
    split at hp
    · rename_i hd
      cases hp
      rw [if_pos hd]
      exact ⟨none, rfl, rfl⟩
    · rename_i hd
      rw [if_neg hd]
      split at hp
      · cases hp
      · rename_i known h2
        simp only [h2]
        split at hp
        · cases hp
        · rename_i start here h3
          have h := snapshots_project (C := C) (src := src) (env := env) (filter := fun _ => true) sfs
            ((⟨BMap.keys known ++ listedIds start, []⟩, ReaderState.new), 0)
          simp only at h
          simp only [h3, h] at hp ⊢
          cases h4 : snapshotsCounted C src env (fun _ => true) sfs
              ((⟨BMap.keys known ++ listedIds start, []⟩, ReaderState.new), 0) with
          | error e => rw [h4] at hp; cases hp
          | ok u =>
            rw [h4] at hp
            cases hp
            exact ⟨_, rfl, rfl⟩

/-- The same of a prune, which leaves nothing out. -/
theorem prune_adds_up (w : World Id) (hP : PruneOk C env ids w src snaps)
    (hp : prunePlan C env w src snaps dry = .ok (some plan)) (news : List (Snapshot Id)) (r : Nat)
    (hr : pruneReused C env w src snaps = .ok (some (news, r))) :
    GoneThrough C w.repo (fun _ => true) snaps news (bytesOf (sends plan.main) + r) := by
  unfold prunePlan at hp
  unfold pruneReused at hr
  cases h1 : loadForests C src (newTreeCache C) snaps with
  | error e => rw [h1] at hp; cases hp
  | ok sfs =>
    simp only [h1] at hp hr
    split at hp
    · cases hp
    · rename_i hd
      rw [if_neg hd] at hr
      split at hp
      · cases hp
      · rename_i known h2
        simp only [h2] at hr
        split at hp
        · cases hp
        · rename_i start here h3
          have h := snapshots_project (C := C) (src := src) (env := env) (filter := fun _ => true) sfs
            ((⟨BMap.keys known ++ listedIds start, []⟩, ReaderState.new), 0)
          simp only at h
          simp only [h3, h] at hp hr
          cases h4 : snapshotsCounted C src env (fun _ => true) sfs
              ((⟨BMap.keys known ++ listedIds start, []⟩, ReaderState.new), 0) with
          | error e => rw [h4] at hp; cases hp
          | ok u =>
            rw [h4] at hp hr
            cases hp
            cases hr
            obtain ⟨g1, g2⟩ := loadForests_sound hP.healthy.sound hP.opens snaps newTreeCache_ok h1
            have hin : ∀ e ∈ sfs, (e.1.2, e.1.1) ∈ w.repo.snapshots := by
              intro e he
              refine (hP.loaded _ _).mpr ?_
              rw [← g1]
              exact List.mem_map.mpr ⟨e, he, rfl⟩
            obtain ⟨n, g3, g4⟩ := snapshots_sum hP.clock hP.healthy.sound hP.opens sfs _ _ _
              (fun e he => hP.healthy.readable _ _ (hin e he))
              (fun e he id t ht => (((g2 e he).1 id t).mp ht).2) C33.settled_new h4
            rw [g1] at g3
            rw [sends_ups]
            have : bytesOf u.2.1.1.sent + u.2.2 = n := by
              simpa [repackTotal, bytesOf] using g4
            rwa [this]

/-! ## Examples -/

/-- Copying two snapshots into an empty repository, one of them less its only file: all of it is new. -/
example : ∃ news, copyReused Demo.codec Demo.env Demo.world0 (Check.opened Demo.repoAB) Demo.src0
      (Demo.snapsOf Demo.repoAB) C30.noB = .ok (news, 0) ∧ news.length = 2 ∧
    GoneThrough Demo.codec Demo.repoAB C30.noB (Demo.snapsOf Demo.repoAB) news (bytesOf (sends C30.plan1.main)) ∧
    0 < bytesOf (sends C30.plan1.main) := by
  obtain ⟨news, r, h, _⟩ := copy_counts Demo.world0 C30.plan1_eq
  have hr : (match copyReused Demo.codec Demo.env Demo.world0 (Check.opened Demo.repoAB) Demo.src0
      (Demo.snapsOf Demo.repoAB) C30.noB with | .ok x => (x.1.length, x.2) | .error _ => (0, 1)) = (2, 0) := by
    decide +kernel
  rw [h] at hr
  simp only [Prod.mk.injEq] at hr
  obtain ⟨hr, rfl⟩ := hr
  have := copy_adds_up Demo.world0 (C30.copyOk_of Demo.healthyAB) C30.plan1_eq news 0 h
  rw [Nat.add_zero] at this
  exact ⟨news, h, hr, this, by decide +kernel⟩

/-- The copy of two snapshots to a repository that has their data. -/
def plan2 : Plan ObjectId := Demo.planOf
  (copyPlan Demo.codec Demo.env (Demo.clean Demo.repoA) (Check.opened Demo.repoAB) (Check.opened Demo.repoA)
    (Demo.snapsOf Demo.repoAB) (fun _ => true) false)

theorem plan2_eq : copyPlan Demo.codec Demo.env (Demo.clean Demo.repoA) (Check.opened Demo.repoAB) (Check.opened Demo.repoA)
    (Demo.snapsOf Demo.repoAB) (fun _ => true) false = .ok plan2 := Demo.planOf_eq (by decide +kernel)

/-- Nothing of it is new. -/
example : ∃ news, copyReused Demo.codec Demo.env (Demo.clean Demo.repoA) (Check.opened Demo.repoAB) (Check.opened Demo.repoA)
      (Demo.snapsOf Demo.repoAB) (fun _ => true) = .ok (news, 208) ∧
    GoneThrough Demo.codec Demo.repoAB (fun _ => true) (Demo.snapsOf Demo.repoAB) news 208 := by
  obtain ⟨news, r, h, _⟩ := copy_counts (Demo.clean Demo.repoA) plan2_eq
  have hr : (match copyReused Demo.codec Demo.env (Demo.clean Demo.repoA) (Check.opened Demo.repoAB)
      (Check.opened Demo.repoA) (Demo.snapsOf Demo.repoAB) (fun _ => true) with | .ok x => x.2 | .error _ => 0) = 208 := by
    decide +kernel
  rw [h] at hr
  simp only at hr
  subst hr
  refine ⟨news, h, ?_⟩
  have := copy_adds_up (Demo.clean Demo.repoA) (ids := Demo.pruneIds) ⟨Demo.env_ok, Demo.healthyAB,
    Check.opened_opens Demo.healthyAB, (C30.copyOk_of Demo.healthyAB).loaded, Demo.healthyA,
    Demo.leftover_clean Demo.healthyA, Check.opened_opens Demo.healthyA⟩ plan2_eq news 208 h
  rwa [show sends plan2.main = [] by decide +kernel, show bytesOf ([] : List (Blob ObjectId)) + 208 = 208 from rfl] at this

/-- A prune that must repack. -/
example : ∃ news, pruneReused Demo.codec Demo.env (Demo.clean Demo.repoA) (Check.opened Demo.repoA)
      (Demo.snapsOf Demo.repoA) = .ok (some (news, 0)) ∧
    GoneThrough Demo.codec Demo.repoA (fun _ => true) (Demo.snapsOf Demo.repoA) news (bytesOf (sends Demo.planA.main)) ∧
    0 < bytesOf (sends Demo.planA.main) := by
  obtain ⟨o, h, ho⟩ := prune_counts (Demo.clean Demo.repoA) _ Demo.planA_eq
  obtain ⟨⟨news, r⟩, rfl⟩ := Option.isSome_iff_exists.mp ho
  have hr : (match pruneReused Demo.codec Demo.env (Demo.clean Demo.repoA) (Check.opened Demo.repoA)
      (Demo.snapsOf Demo.repoA) with | .ok (some x) => x.2 | _ => 1) = 0 := by decide +kernel
  rw [h] at hr
  simp only at hr
  subst hr
  have := prune_adds_up (Demo.clean Demo.repoA) Demo.pruneOkA Demo.planA_eq news 0 h
  rw [Nat.add_zero] at this
  exact ⟨news, h, this, by decide +kernel⟩

end Backpak.C105
