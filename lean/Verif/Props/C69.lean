import Verif.Lemmas.Same
import Verif.Props.C27

/-!
# C69 - Backing up what has not changed adds nothing

`arrange (keep a.filter a.pathOf a.fs)` is the file tree that is walked, and `Holds` says what a
snapshot's tree stands for. The parent of a backup is the latest snapshot of the same paths.
-/

namespace Backpak.C69

open Spec Pipeline Again

variable {Id : Type} [LinearOrder Id] {C : Codec Id} {cut : Bytes → Nat} {ids : Ids Id} {cores : Nat}
  {src : Source Id} {snaps : List (Snap Id)} {a : BackupArgs} {plan : Plan Id}

theorem sent_none {packed : List Id} {L : List (Blob Id)} (h : ∀ b ∈ L, b.id ∈ packed) :
    (L.foldl offer ⟨packed, []⟩).sent = [] := by
  obtain ⟨new, h1, h2, _, h4, _⟩ := offer_all L ⟨packed, []⟩
  rw [h1, List.nil_append]
  cases new with
  | nil => rfl
  | cons b new => exact absurd (h b (h2.subset List.mem_cons_self)) (h4 b List.mem_cons_self)

/-- A backup of what its parent holds sends no blob, whatever it resumes from; what it would put
in a snapshot is the parent's tree. -/
theorem unchanged_sends_nothing (w : World Id) (hB : BackupOk C cut ids w src snaps a)
    (hp : backupPlan C cut w src snaps a = .ok plan) (p : Snapshot Id)
    (hpar : parentSnapshot a.paths snaps = some p)
    (hsame : Holds C w.repo p.tree (arrange (keep a.filter a.pathOf a.fs))) :
    sends plan.main = [] ∧ plan.post = backupPost C a snaps plan.start [] p.tree ∧
      (w.cwd.wip = none → plan.start = Index.empty ∧ plan.main = []) := by
  obtain ⟨F, known, here, root, L, hF, hk, hr, hb, hoff, hm, hpost⟩ := plan_ok hp
  have hS := hB.healthy.sound
  rw [hpar] at hF hb
  have hF' := hF
  unfold parentForest at hF
  simp only at hF
  cases hf : forestFromRoot C src p.tree (newTreeCache C) with
  | error e => rw [hf] at hF; cases hF
  | ok r =>
    rw [hf] at hF
    obtain ⟨f, cache⟩ := r
    have hF : f = F := by cases hF; rfl
    subst hF
    have hex := C23.forest_exact hS hB.opens p.tree (newTreeCache C) f cache newTreeCache_ok hf
    obtain ⟨t0, ht0, hd0⟩ := hsame
    have hin : HeldIn (FileHolds C w.repo) f t0 (arrange (keep a.filter a.pathOf a.fs)) :=
      rel_in_forest (fun id t h1 h2 => (hex id t).mpr ⟨h1, h2⟩) hd0
        (fun x hx => reaches_sub .refl ht0 hx)
    have hok : ∀ id u, f.get? id = some u → BMap.Sorted u ∧ C.hash (C.encTree u) = id := by
      intro id u hu
      obtain ⟨_, h1, h2, _⟩ := (hex id u).mp hu
      exact ⟨h1.sorted, h2⟩
    obtain ⟨hroot, hbs⟩ := backup_same hok ((hex _ _).mpr ⟨.refl, ht0⟩) hin hb
    subst hroot
    have hsent : (L.foldl offer ⟨BMap.keys known ++ listedIds plan.start, []⟩).sent = [] := by
      refine sent_none (fun b hbL => ?_)
      obtain ⟨u, hu, hget, rfl⟩ := hbs b hbL
      obtain ⟨_, _, _, h3⟩ := (hex _ _).mp hget
      obtain ⟨q, bs, h1, h2, h4⟩ := (hS.has_iff _).mp (h3.resolve_left hu)
      exact (packed_iff hS hB.leftover hB.opens hk hr _).mpr ⟨_, ⟨q, bs, .inl ⟨h1, h2⟩, h4⟩, rfl⟩
    rw [hsent] at hm hpost
    have hs : sends plan.main = [] := by
      rw [hm]
      split
      · rfl
      · exact sends_mainOf here []
    refine ⟨hs, hpost, fun hw => ?_⟩
    rcases resumeFrom_ok hr with ⟨_, h1, h2⟩ | ⟨h1, _⟩
    · exact ⟨h1, by rw [hm, h2]; simp⟩
    · rw [hw] at h1; cases h1

/-- The last snapshot of all, if it is of the same paths, is the parent. -/
theorem last_is_parent {sn : Snapshot Id} {i : Id} (hlast : snaps.getLast? = some (sn, i))
    (hpaths : sn.paths = a.paths) : parentSnapshot a.paths snaps = some sn := by
  unfold parentSnapshot
  have : snaps.reverse.head? = some (sn, i) := by rw [List.head?_reverse, hlast]
  cases hr : snaps.reverse with
  | nil => rw [hr] at this; cases this
  | cons x l =>
    rw [hr] at this
    cases this
    simp [List.find?_cons, hpaths]

/-- A run that starts from nothing and is sent nothing does nothing. -/
theorem idle {c : Cfg Id} {w : World Id} (hstart : c.start.isEmpty = true) (hw : w.cwd.wip = none)
    {s : State Id} (h : Reachable c w [] s) : s.world = w := by
  have key : s.world = w ∧ s.main = [] ∧ (∀ k, s.pk k = .recv [] ∨ s.pk k = .exited) ∧
      (s.ix = .recv c.start ∨ s.ix = .exited none) ∧ (s.up = .idle ∨ s.up = .exited) := by
    induction h with
    | refl => exact ⟨rfl, rfl, fun k => .inl rfl, by simp [init, hstart], .inl rfl⟩
    | tail _ hs ih =>
      obtain ⟨i1, i2, i3, i4, i5⟩ := ih
      cases hs with
      | spawn => exact ⟨i1, i2, i3, i4, i5⟩
      | mainUp p bs rest h1 => rw [i2] at h1; cases h1
      | mainSend b cur rest h1 => rw [i2] at h1; cases h1
      | close => exact ⟨i1, i2, i3, i4, i5⟩
      | endPack k cur _ h2 h3 =>
        rcases i3 k with h | h
        · rw [h] at h2; cases h2; exact absurd rfl h3
        · rw [h] at h2; cases h2
      | packerExit k cur =>
        refine ⟨i1, i2, fun k' => ?_, i4, i5⟩
        simp only [Function.update_apply]
        split
        · exact .inr rfl
        · exact i3 k'
      | packerUp k id bs h1 => rcases i3 k with h | h <;> rw [h] at h1 <;> cases h1
      | packerIdx k id bs x h1 => rcases i3 k with h | h <;> rw [h] at h1 <;> cases h1
      | packerDup k id bs x h1 => rcases i3 k with h | h <;> rw [h] at h1 <;> cases h1
      | ixPersist x h1 => rcases i4 with h | h <;> rw [h] at h1 <;> cases h1
      | ixEmpty => exact ⟨i1, i2, i3, .inr rfl, i5⟩
      | ixClosed x h1 _ _ _ h2 =>
        rcases i4 with h | h
        · rw [h] at h1; cases h1; rw [hstart] at h2; cases h2
        · rw [h] at h1; cases h1
      | ixPersistLast x h1 => rcases i4 with h | h <;> rw [h] at h1 <;> cases h1
      | ixCopy x h1 => rcases i4 with h | h <;> rw [h] at h1 <;> cases h1
      | ixUp x h1 => rcases i4 with h | h <;> rw [h] at h1 <;> cases h1
      | upStore i h1 => rcases i5 with h | h <;> rw [h] at h1 <;> cases h1
      | upDrop i h1 => rcases i5 with h | h <;> rw [h] at h1 <;> cases h1
      | upMove i h1 => rcases i5 with h | h <;> rw [h] at h1 <;> cases h1
      | upDiscard i h1 => rcases i5 with h | h <;> rw [h] at h1 <;> cases h1
      | upExit => exact ⟨i1, i2, i3, i4, .inr rfl⟩
      | join =>
        refine ⟨?_, i2, i3, i4, i5⟩
        rw [i1]
        obtain ⟨r, ⟨x, y, z⟩⟩ := w
        cases hw
        rfl
  exact key.1

/-- What follows the join when the tree is the last snapshot's, by the same author, with the same
tags and of the same paths. -/
theorem post_same {sn : Snapshot Id} {i : Id} (hlast : snaps.getLast? = some (sn, i))
    (hpaths : sn.paths = a.paths) (hauthor : sn.author = a.author) (htags : sn.tags = a.tags)
    (start : Index Id) (sent : List (Blob Id)) :
    backupPost C a snaps start sent sn.tree =
      if sent.isEmpty && (a.dryRun || start.isEmpty) then .ok []
      else .error (.panic "assertion `left == right` failed") := by
  unfold backupPost
  have : (snaps.getLast?.map (fun s => { s.1 with time := a.now, tz := a.tz })) =
      some (⟨a.now, a.tz, a.author, a.tags, a.paths, sn.tree⟩ : Snapshot Id) := by
    rw [hlast, ← hpaths, ← hauthor, ← htags]
    rfl
  simp only [this, if_true, ite_self]

/-- If there is nothing to resume, and the last snapshot is of the same paths, by the same author,
with the same tags, and holds the file tree that is walked, then the backup sends nothing, succeeds, and
at no instant has anything changed: neither in the repository nor in the working directory. -/
theorem unchanged_adds_nothing_partial (w : World Id) (hB : BackupOk C cut ids w src snaps a)
    (hp : backupPlan C cut w src snaps a = .ok plan) (sn : Snapshot Id) (i : Id)
    (hlast : snaps.getLast? = some (sn, i)) (hpaths : sn.paths = a.paths)
    (hauthor : sn.author = a.author) (htags : sn.tags = a.tags)
    (hsame : Holds C w.repo sn.tree (arrange (keep a.filter a.pathOf a.fs)))
    (hwip : w.cwd.wip = none) :
    plan.main = [] ∧ plan.post = .ok [] ∧
    ∀ w', Instant (C13.cfg ids cores a plan) w plan.main plan.posts w' → w' = w := by
  obtain ⟨_, h2, h3⟩ := unchanged_sends_nothing w hB hp sn (last_is_parent hlast hpaths) hsame
  obtain ⟨h4, h5⟩ := h3 hwip
  have h6 : plan.post = .ok [] := by
    rw [h2, post_same hlast hpaths hauthor htags, h4]
    simp [Index.isEmpty, Index.empty]
  refine ⟨h5, h6, fun w' h => ?_⟩
  have hposts : plan.posts = [] := by unfold Plan.posts; rw [h6]
  have hst : (C13.cfg ids cores a plan).start.isEmpty = true := by
    simp [C13.cfg, h4, Index.isEmpty, Index.empty]
  rw [hposts, h5] at h
  cases h with
  | during s hs => exact idle hst hwip hs
  | after s done rest hs _ he =>
    have := idle hst hwip hs
    obtain ⟨rfl, _⟩ := List.append_eq_nil_iff.mp he.symm
    rw [← this]
    rfl

/-- On a dry run the same backup succeeds, whatever there is to resume. -/
theorem unchanged_dry_run (w : World Id) (hB : BackupOk C cut ids w src snaps a)
    (hp : backupPlan C cut w src snaps a = .ok plan) (sn : Snapshot Id) (i : Id)
    (hlast : snaps.getLast? = some (sn, i)) (hpaths : sn.paths = a.paths)
    (hauthor : sn.author = a.author) (htags : sn.tags = a.tags)
    (hsame : Holds C w.repo sn.tree (arrange (keep a.filter a.pathOf a.fs)))
    (hdry : a.dryRun = true) : plan.post = .ok [] := by
  obtain ⟨_, h2, _⟩ := unchanged_sends_nothing w hB hp sn (last_is_parent hlast hpaths) hsame
  rw [h2, post_same hlast hpaths hauthor htags, hdry]
  simp

/-- The claim fails when there is something to resume: whatever index an earlier command left, if it
is not empty, the backup that finds nothing new runs to its end and then panics. -/
theorem unchanged_resumed_panics (w : World Id) (hB : BackupOk C cut ids w src snaps a)
    (hp : backupPlan C cut w src snaps a = .ok plan) (sn : Snapshot Id) (i : Id)
    (hlast : snaps.getLast? = some (sn, i)) (hpaths : sn.paths = a.paths)
    (hauthor : sn.author = a.author) (htags : sn.tags = a.tags)
    (hsame : Holds C w.repo sn.tree (arrange (keep a.filter a.pathOf a.fs)))
    (hdry : a.dryRun = false) (x : Index Id) (hwip : w.cwd.wip = some x) (hx : x.isEmpty = false) :
    plan.post = .error (.panic "assertion `left == right` failed") := by
  obtain ⟨_, h2, _⟩ := unchanged_sends_nothing w hB hp sn (last_is_parent hlast hpaths) hsame
  obtain ⟨F, known, here, root, L, hF, hk, hr, hb, hoff, hm, hpost⟩ := plan_ok hp
  have : plan.start = x := by
    rcases resumeFrom_ok hr with ⟨h, _⟩ | ⟨h, _⟩
    · rw [hwip] at h; cases h
    · rw [hwip] at h; cases h; rfl
  rw [h2, post_same hlast hpaths hauthor htags, hdry, this, hx]
  simp

/-- And only then: a backup whose blobs have distinct IDs never panics after its run unless it is
not a dry run and resumed from an index that was not empty. -/
theorem panics_only_if_resumed (w : World Id) (hB : BackupOk C cut ids w src snaps a)
    (hU : Unmixed C (fun b => Stored w b ∨ b ∈ offered C cut src snaps a))
    (hp : backupPlan C cut w src snaps a = .ok plan) (e : Fail) (he : plan.post = .error e) :
    a.dryRun = false ∧ ∃ x, w.cwd.wip = some x ∧ x.isEmpty = false := by
  obtain ⟨F, known, here, root, L, hF, hk, hr, hb, hoff, hm, hpost⟩ := plan_ok hp
  have hS := hB.healthy.sound
  rw [hoff] at hU
  have hneed := backup_needed hB.chunker hB.fits hB.few hB.sorted
    ((parent_reuse hB.runs hF).mono (fun _ _ h => ⟨trivial, h.2⟩)) hb
  have hsent : ∀ d, Holds C w.repo root d →
      (L.foldl offer ⟨BMap.keys known ++ listedIds plan.start, []⟩).sent = [] := by
    intro d hd
    refine sent_none (fun b hbL => ?_)
    exact (packed_iff hS hB.leftover hB.opens hk hr _).mpr
      (needed_stored hS hB.leftover hU (hneed b hbL) d hd)
  have hnot : ((L.foldl offer ⟨BMap.keys known ++ listedIds plan.start, []⟩).sent.isEmpty &&
      (a.dryRun || plan.start.isEmpty)) = false ∧ ∃ d, Holds C w.repo root d := by
    rw [hpost] at he
    unfold backupPost at he
    simp only at he
    split at he
    · rename_i h
      split at he
      · cases he
      · rename_i hq
        refine ⟨by simpa using hq, .nil, [], ?_, .nil⟩
        rw [h.1]
        exact treeAt_nil
    · split at he
      · rename_i h
        split at he
        · cases he
        · rename_i hq
          refine ⟨by simpa using hq, ?_⟩
          cases hl : snaps.getLast? with
          | none => rw [hl] at h; cases h
          | some v =>
            obtain ⟨sn, i⟩ := v
            rw [hl] at h
            simp only [Option.map_some, Option.some.injEq, Snapshot.mk.injEq] at h
            obtain ⟨_, _, _, _, _, h⟩ := h
            rw [← h]
            exact hB.healthy.readable i _ (hB.loaded _ (List.mem_of_getLast? hl))
      · split at he <;> cases he
  obtain ⟨hq, d, hd⟩ := hnot
  rw [hsent d hd] at hq
  simp only [List.isEmpty_nil, Bool.true_and, Bool.or_eq_false_iff] at hq
  refine ⟨hq.1, ?_⟩
  rcases resumeFrom_ok hr with ⟨_, h, _⟩ | ⟨h, _⟩
  · rw [h] at hq; simp [Index.isEmpty, Index.empty] at hq
  · exact ⟨_, h, hq.2⟩

/-! ## Examples -/

/-- Back up again the directory that the snapshot of `repoA` holds, later. -/
def argsA : BackupArgs := { Demo.args0 with
  paths := [[[104]]], fs := .leaf [97] (Demo.fileMd 3 5) (.file [1, 2, 3]) .nil }

theorem holdsA : Holds Demo.codec Demo.repoA Demo.snapA.tree (arrange (keep argsA.filter argsA.pathOf argsA.fs)) :=
  Check.dirAt_sound 3 (by decide +kernel)

theorem parentA : parentSnapshot argsA.paths (Demo.snapsOf Demo.repoA) = some Demo.snapA := by decide +kernel

theorem faithfulA : Faithful (arrange (keep argsA.filter argsA.pathOf argsA.fs))
    (keep argsA.filter argsA.pathOf argsA.fs) := by
  have h1 : fileAt (arrange (keep argsA.filter argsA.pathOf argsA.fs)) [97] =
      some (Demo.fileMd 3 5, [1, 2, 3]) := by decide +kernel
  refine ⟨?_, trivial⟩
  intro x m x0 hx h0 _
  rw [h1] at h0
  cases hx
  cases h0
  rfl

theorem okA (cwd : Cwd ObjectId) (hL : Leftover Demo.codec Demo.pruneIds ⟨Demo.repoA, cwd⟩) :
    BackupOk Demo.codec Demo.cut Demo.pruneIds ⟨Demo.repoA, cwd⟩ (Check.opened Demo.repoA) (Demo.snapsOf Demo.repoA) argsA where
  chunker := Demo.cut_contract
  healthy := Demo.healthyA
  leftover := hL
  opens := Check.opened_opens Demo.healthyA
  loaded s hs := (Demo.pruneOkA.loaded s.2 s.1).mpr hs
  fits := ⟨by decide, Demo.okFileMd _ _ (by decide) (by decide), by simp [LeafFits], trivial⟩
  few := by decide
  sorted := by simp [argsA, SubsSorted]
  faithful p d0 h hd := by
    have hp : Demo.snapA = p := Option.some.inj (parentA.symm.trans h)
    rw [← hp] at hd
    have := holds_one Demo.healthyA.sound holdsA hd
    exact this ▸ faithfulA

theorem lastA : (Demo.snapsOf Demo.repoA).getLast? = some (Demo.snapA, Demo.pruneIds.snapId Demo.snapA) := by
  decide +kernel

def planSame : Plan ObjectId := Demo.planOf
  (backupPlan Demo.codec Demo.cut (Demo.clean Demo.repoA) (Check.opened Demo.repoA) (Demo.snapsOf Demo.repoA) argsA)

theorem planSame_eq : backupPlan Demo.codec Demo.cut (Demo.clean Demo.repoA) (Check.opened Demo.repoA)
    (Demo.snapsOf Demo.repoA) argsA = .ok planSame := Demo.planOf_eq (by decide +kernel)

/-- The same after a dry run of rebuild-index. -/
def planAfter : Plan ObjectId := Demo.planOf
  (backupPlan Demo.codec Demo.cut C27.leftR (Check.opened Demo.repoA) (Demo.snapsOf Demo.repoA) argsA)

theorem planAfter_eq : backupPlan Demo.codec Demo.cut C27.leftR (Check.opened Demo.repoA)
    (Demo.snapsOf Demo.repoA) argsA = .ok planAfter := Demo.planOf_eq (by decide +kernel)

/-- A backup of the directory the repository's snapshot holds. -/
example : planSame.main = [] ∧ planSame.post = .ok [] ∧
    ∀ w', Instant (C13.cfg Demo.pruneIds 4 argsA planSame) (Demo.clean Demo.repoA) planSame.main planSame.posts w' →
      w' = Demo.clean Demo.repoA :=
  unchanged_adds_nothing_partial _ (okA _ (Demo.leftover_clean Demo.healthyA)) planSame_eq _ _ lastA rfl rfl rfl
    holdsA rfl

/-- The same backup after a dry run of rebuild-index has run to its end: it can finish, and when it does
it panics, having put an index in the repository. -/
theorem panics_after_rebuild :
    Rebuild.Finished Demo.pruneIds false (Demo.clean Demo.repoA) C27.leftR ∧
    C27.leftR.repo = Demo.repoA ∧
    backupPlan Demo.codec Demo.cut C27.leftR (Check.opened Demo.repoA) (Demo.snapsOf Demo.repoA) argsA = .ok planAfter ∧
    planAfter.post = .error (.panic "assertion `left == right` failed") ∧
    sends planAfter.main = [] := by
  have h1 : C27.Ran Demo.codec Demo.cut Demo.pruneIds 4 (Demo.clean Demo.repoA) C27.leftR :=
    .rebuild C27.newR C27.goodR C27.dryR
  obtain ⟨_, hL⟩ := C27.ran_step h1 Demo.healthyA (Demo.leftover_clean Demo.healthyA)
  refine ⟨(C28.dry_leaves_wip (ids := Demo.pruneIds) (Demo.clean Demo.repoA) Demo.healthyA.packs_sorted C27.newR
    (.inl (by decide +kernel))).1, rfl, planAfter_eq, ?_, ?_⟩
  · exact unchanged_resumed_panics C27.leftR (okA _ hL) planAfter_eq _ _ lastA rfl rfl rfl holdsA rfl _ rfl
      (by decide +kernel)
  · exact (unchanged_sends_nothing C27.leftR (okA _ hL) planAfter_eq _ (last_is_parent lastA rfl) holdsA).1

theorem blobsA : ∀ b ∈ emptyBlob Demo.codec :: (Demo.repoA.packs.flatMap Prod.snd ++
      offered Demo.codec Demo.cut (Check.opened Demo.repoA) (Demo.snapsOf Demo.repoA) argsA),
    ∀ b' ∈ emptyBlob Demo.codec :: (Demo.repoA.packs.flatMap Prod.snd ++
      offered Demo.codec Demo.cut (Check.opened Demo.repoA) (Demo.snapsOf Demo.repoA) argsA),
    Demo.codec.hash b.data = Demo.codec.hash b'.data → b.data = b'.data ∧ b.kind = b'.kind := by decide +kernel

/-- What `panics_only_if_resumed` asks for is met by that backup. -/
example : Unmixed Demo.codec (fun b => Stored C27.leftR b ∨
      b ∈ offered Demo.codec Demo.cut (Check.opened Demo.repoA) (Demo.snapsOf Demo.repoA) argsA) ∧
    planAfter.post = .error (.panic "assertion `left == right` failed") := by
  refine ⟨?_, panics_after_rebuild.2.2.2.1⟩
  have hm : ∀ b, (Stored C27.leftR b ∨ b ∈ offered Demo.codec Demo.cut (Check.opened Demo.repoA)
      (Demo.snapsOf Demo.repoA) argsA) → b ∈ emptyBlob Demo.codec :: (Demo.repoA.packs.flatMap Prod.snd ++
        offered Demo.codec Demo.cut (Check.opened Demo.repoA) (Demo.snapsOf Demo.repoA) argsA) := by
    rintro b (⟨p, bs, (⟨_, h2⟩ | ⟨x, _, _, h2 | h2⟩), h3⟩ | h1)
    · exact List.mem_cons_of_mem _ (List.mem_append_left _ (List.mem_flatMap.mpr ⟨_, h2, h3⟩))
    · cases h2
    · exact List.mem_cons_of_mem _ (List.mem_append_left _ (List.mem_flatMap.mpr ⟨_, h2, h3⟩))
    · exact List.mem_cons_of_mem _ (List.mem_append_right _ h1)
  exact ⟨fun b b' g g' he => (blobsA b (hm b g) b' (g'.elim (hm b') (fun e => e ▸ List.mem_cons_self)) he).1,
    fun b b' g g' he => (blobsA b (hm b g) b' (hm b' g') (by rw [he])).2⟩

end Backpak.C69
