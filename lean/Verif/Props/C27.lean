import Verif.Props.C20
import Verif.Props.C25
import Verif.Props.C29
import Verif.Props.C30
import Verif.Props.C31
import Verif.Lemmas.SimpleRun

/-!
# C27 - An interrupted command never harms the next one's data

True of backups, copies and filter-snapshot, interrupted (or failing), and of what follows them; of rebuild-index,
dry or not, interrupted or not, if no blob is in two packs, and of what follows it but for a prune (see `C25`)
should it not have finished; and of interrupted prunes that are followed by nothing but prunes until one has finished.
False of a backup that follows an interrupted prune, and, without any interruption, of a backup of what a prune has
removed.
-/

namespace Backpak.C27

open Spec Pipeline

section History

variable {Id : Type} [LinearOrder Id] (C : Codec Id) (cut : Bytes → Nat) (ids : Ids Id) (cores : Nat)

/-- What may happen between two instants: a backup that is stopped anywhere, or runs to its end; a
backup that fails part way, and is stopped anywhere; a copy from some other repository, or
filter-snapshot, that is stopped anywhere or runs to its end; some snapshots are forgotten; the index is
rebuilt, or would be, and that is stopped anywhere or runs to its end; any number of prunes that are stopped
anywhere, followed by one that runs to its end, the first of which does not find an index that supersedes just
those there are. The caveats are those of `C13`, `C24`, `C25`, `C28`, `C30` and `C31`. -/
inductive Ran : World Id → World Id → Prop
  | backup {w w' src snaps a plan} :
      (Healthy C ids w.repo → Leftover C ids w → BackupOk C cut ids w src snaps a) →
      NoClash C cut ids cores w src snaps a plan → a.dryRun = false →
      backupPlan C cut w src snaps a = .ok plan →
      Instant (C13.cfg ids cores a plan) w plan.main plan.posts w' → Ran w w'
  | failing {w src snaps a plan here sent s} :
      (Healthy C ids w.repo → Leftover C ids w → BackupOk C cut ids w src snaps a) →
      NoClash C cut ids cores w src snaps a plan → a.dryRun = false →
      backupPlan C cut w src snaps a = .ok plan → resumeFrom w = .ok (plan.start, here) →
      sent <+: sends plan.main → Reachable (C13.cfg ids cores a plan) w (mainOf here sent) s →
      Ran w s.world
  | copy {w w' env R from_ dst snaps filter plan} :
      (Healthy C ids w.repo → Leftover C ids w → CopyOk C env ids R w from_ dst snaps) →
      CopyNoClash C ids cores R w from_ snaps filter plan →
      copyPlan C env w from_ dst snaps filter false = .ok plan →
      Instant (liveCfg ids cores plan.start) w plan.main plan.posts w' → Ran w w'
  | filter {w w' src target filter a plan} :
      (Healthy C ids w.repo → Leftover C ids w → FilterOk C ids w src target) →
      FilterNoClash C ids cores w src target filter plan → filterPlan C src target filter a = .ok plan →
      Instant (liveCfg ids cores plan.start) w plan.main plan.posts w' → Ran w w'
  | forget {w : World Id} {snapshots} : snapshots.Sublist w.repo.snapshots →
      Ran w ⟨{ w.repo with snapshots := snapshots }, w.cwd⟩
  | rebuild {w w' live} : C28.NewName ids w.repo → C28.AllGood C w → Rebuild.Instant ids live w w' → Ran w w'
  | prune {w u w' env src snaps plan} : (∀ x, w.cwd.wip = some x → ¬ Replaces w x) →
      (∀ x, ¬ Has C w.repo ⟨x, C.emptyId, .chunk⟩) → Relation.ReflTransGen (C25.Pruned C ids cores) w u →
      C33.EnvOk env → Opens u.repo src → (∀ i s, (i, s) ∈ u.repo.snapshots ↔ (s, i) ∈ snaps) →
      PruneNoClash ids cores u plan → prunePlan C env u src snaps false = .ok (some plan) →
      Finished (liveCfg ids cores plan.start) u plan.main plan.posts w' → Ran w w'

variable {C cut ids cores}

theorem healthy_forget {R : Repo Id} (h : Healthy C ids R) {l : BMap Id (Snapshot Id)}
    (hl : l.Sublist R.snapshots) : Healthy C ids { R with snapshots := l } :=
  ⟨h.packs_sorted, h.indexes_sorted, h.snapshots_sorted.sublist (hl.map _), h.pack_names, h.index_names,
    h.index_packs, h.present, h.distinct, h.once, h.one_kind, h.hashes, h.trees, h.full,
    fun i s hs => by
      obtain ⟨d, hd⟩ := h.readable i s (hl.subset hs)
      exact ⟨d, has_mono_holds (R := R) (R' := { R with snapshots := l }) (fun b hb => hb) hd⟩⟩

theorem ran_step {w w' : World Id} (h : Ran C cut ids cores w w') (hH : Healthy C ids w.repo)
    (hL : Leftover C ids w) : Healthy C ids w'.repo ∧ Leftover C ids w' := by
  cases h with
  | backup h1 h2 h3 h4 h5 => exact C13.next_can_start _ _ (h1 hH hL) h2 h3 h4 h5
  | failing h1 h2 h3 h4 h5 h6 h7 => exact C13.failing_readable_partial _ (h1 hH hL) h2 h3 h4 _ h5 _ h6 _ h7
  | copy h1 h2 h3 h4 =>
    obtain ⟨a1, a2, _⟩ := C30.always_healthy_partial _ _ _ (h1 hH hL) h2 h3 h4
    exact ⟨a1, a2⟩
  | filter h1 h2 h3 h4 =>
    exact ⟨(C31.others_untouched_partial _ _ (h1 hH hL) h2 h3 h4).1, C31.next_can_start _ _ (h1 hH hL) hL h2 h3 h4⟩
  | forget h1 => exact ⟨healthy_forget hH h1, C13.leftover_put hL⟩
  | rebuild h1 h2 h3 => exact C28.next_can_start _ _ hH hL h1 h2 h3
  | prune h0 h1 h2 h3 h4 h5 h6 h7 h8 =>
    obtain ⟨a1, _, _, a4, a5⟩ := C25.resumed_keeps_partial hH (hL.prune h0) h1 h2
    have hP : PruneOk C _ ids _ _ _ := ⟨h3, a1, a4, h4, h5, a5⟩
    exact ⟨(C26.left hP h6 h7 h8).healthy, (C24.leaves_nothing _ _ hP h6 h7 h8).2⟩

/-- A prune may follow a rebuild-index that ran to its end: the index that is left supersedes those that were
there before. -/
theorem prune_may_follow {w w' : World Id} (hH : Healthy C ids w.repo) (hnew : C28.NewName ids w.repo)
    (h : Rebuild.Finished ids true w w') (x : Index Id) (hx : w'.cwd.wip = some x) : ¬ Replaces w' x := by
  have h1 := C28.leaves_wip w w' hH.packs_sorted hH.indexes_sorted hnew h
  rw [h1] at hx
  cases hx
  rintro ⟨_, h2⟩
  rw [(C28.finished_repo hH.packs_sorted hH.indexes_sorted hnew h).1] at h2
  refine hnew.1 ?_
  show _ ∈ BMap.keys w.repo.indexes
  have h3 : BMap.keys w.repo.indexes = [ids.indexId (C28.whole w.repo)] := h2
  rw [h3]
  exact List.mem_singleton.mpr rfl

/-- After any history of backups, copies and filter-snapshots, each stopped anywhere (or failing, for
backups), of forgetting, of rebuilding the index, dry or not and stopped anywhere, and of prunes, each stopped
anywhere but finished before anything else is done, every snapshot that is there can be read, and the next command can start. -/
theorem history_partial {w w' : World Id} (hH : Healthy C ids w.repo) (hL : Leftover C ids w)
    (h : Relation.ReflTransGen (Ran C cut ids cores) w w') :
    Healthy C ids w'.repo ∧ Leftover C ids w' := by
  induction h with
  | refl => exact ⟨hH, hL⟩
  | tail _ hs ih => exact ran_step hs ih.1 ih.2

end History

/-- A backup of a small tree that runs to its end, and whose snapshot is then forgotten. -/
example : ∃ w w' : World ObjectId, Relation.ReflTransGen (Ran Demo.codec Demo.cut Demo.ids 4) Demo.world0 w' ∧
    (Demo.ids.snapId Demo.snap0, Demo.snap0) ∈ w.repo.snapshots ∧
    w' = ⟨{ w.repo with snapshots := [] }, w.cwd⟩ := by
  obtain ⟨t, ht, hj⟩ := C20.finishes Demo.world0 Demo.backupOk0 Demo.noClash0 rfl (Nat.le_refl 4)
    BMap.sorted_nil Demo.plan0_eq _ .refl
  have hf := Finished.mk (post := Demo.plan0.posts) t ht hj
  have := C20.snapshot_holds_partial Demo.world0 _ Demo.backupOk0 Demo.noClash0 Demo.plan0_eq Demo.snap0
    Demo.post0 hf
  refine ⟨_, _, .tail (.single (.backup (fun _ _ => Demo.backupOk0) Demo.noClash0 rfl Demo.plan0_eq
    (.after t Demo.plan0.posts [] ht hj (List.append_nil _).symm))) (.forget (List.nil_sublist _)), this.1, rfl⟩

/-- A prune that is interrupted, and one that resumes it and runs to its end. -/
example : ∃ w', Relation.ReflTransGen (Ran Demo.codec Demo.cut Demo.pruneIds 4) (Demo.clean Demo.repoA) w' ∧
    w' ≠ Demo.clean Demo.repoA := by
  obtain ⟨w', hf⟩ := C25.finishesA
  refine ⟨w', .single (.prune (by intro x hx; cases hx) Demo.pruneOkA.noEmpty C25.chainA Demo.env_ok C25.opensA C25.loadedA' C25.noClashA'
    C25.planA'_eq hf), ?_⟩
  rintro rfl
  obtain ⟨_, _, h3, _⟩ := C25.resumed_finished_partial (w := Demo.clean Demo.repoA) Demo.healthyA
    Demo.pruneOkA.leftover Demo.pruneOkA.noEmpty C25.chainA Demo.env_ok C25.opensA C25.loadedA' C25.noClashA'
    C25.planA'_eq hf
  have := (C26.nothing_iff _ Demo.pruneOkA false).mpr h3
  rw [Demo.planA_eq] at this
  cases this

/-! ## A backup after an interrupted prune

Backup starts from whatever work-in-progress index it finds (`src/ui/backup.rs:135-138`). A prune's
supersedes every index of the repository. -/

/-- What the prune had written when it was interrupted. -/
def leftA : World ObjectId := ⟨Demo.repoA, ⟨some Demo.planA.start, [], []⟩⟩

/-- Another directory, with a file of its own. -/
def argsZ : BackupArgs := { Demo.args0 with
  paths := [[[105]]], fs := .leaf [122] (Demo.fileMd 2 5) (.file [7, 7]) .nil }

/-- Its backup. -/
def planZ : Plan ObjectId :=
  Demo.planOf (backupPlan Demo.codec Demo.cut leftA (Check.opened Demo.repoA) (Demo.snapsOf Demo.repoA) argsZ)

theorem planZ_eq : backupPlan Demo.codec Demo.cut leftA (Check.opened Demo.repoA) (Demo.snapsOf Demo.repoA) argsZ
    = .ok planZ := Demo.planOf_eq (by decide +kernel)

/-- It sends the file and its directory. -/
def sendsZ : List (Blob ObjectId) := sends planZ.main

theorem sendsZ_len : sendsZ.length = 2 := by decide +kernel

theorem mainZ : planZ.main = mainOf [] sendsZ := by decide +kernel

theorem runZ : Check.run Demo.codec Demo.pruneIds leftA planZ.start sendsZ = true := by decide +kernel

theorem newZ : IndexNew (liveCfg Demo.pruneIds 4 planZ.start) Demo.repoA sendsZ :=
  Demo.indexNew_of (by decide +kernel)

theorem poolZ : ∀ b ∈ Check.pool leftA planZ.start sendsZ, b.kind = .tree → b.id ≠ Demo.snapA.tree := by
  decide +kernel

/-- The snapshot it makes. -/
def snapZ : Snapshot ObjectId :=
  match planZ.post with
  | .ok [.putSnap s] => s
  | _ => ⟨0, [], [], [], [], Demo.codec.emptyId⟩

theorem postsZ : planZ.posts = [.putSnap snapZ] := by decide +kernel

theorem snapZ_id : Demo.pruneIds.snapId snapZ ≠ Demo.pruneIds.snapId Demo.snapA := by decide +kernel

theorem startA : Demo.planA.start.isEmpty = false := by decide +kernel

theorem supZ : planZ.start.supersedes = BMap.keys leftA.repo.indexes := by decide +kernel

theorem supZ_ne : planZ.start.supersedes ≠ [] := by decide +kernel

/-- A repository in good order; a prune of it, stopped when it has written nothing but its first file
in the working directory; then a backup of something else. However that backup finishes, the
snapshot that was there is still listed and cannot be read. -/
theorem backup_after_prune_loses :
    PruneOk Demo.codec Demo.env Demo.pruneIds (Demo.clean Demo.repoA) (Check.opened Demo.repoA)
      (Demo.snapsOf Demo.repoA) ∧
    PruneNoClash Demo.pruneIds 4 (Demo.clean Demo.repoA) Demo.planA ∧
    prunePlan Demo.codec Demo.env (Demo.clean Demo.repoA) (Check.opened Demo.repoA)
      (Demo.snapsOf Demo.repoA) false = .ok (some Demo.planA) ∧
    Instant (liveCfg Demo.pruneIds 4 Demo.planA.start) (Demo.clean Demo.repoA) Demo.planA.main
      Demo.planA.posts leftA ∧
    leftA.repo = Demo.repoA ∧
    backupPlan Demo.codec Demo.cut leftA (Check.opened Demo.repoA) (Demo.snapsOf Demo.repoA) argsZ = .ok planZ ∧
    (∃ w', Finished (liveCfg Demo.pruneIds 4 planZ.start) leftA planZ.main planZ.posts w') ∧
    ∀ w', Finished (liveCfg Demo.pruneIds 4 planZ.start) leftA planZ.main planZ.posts w' →
      (Demo.pruneIds.snapId Demo.snapA, Demo.snapA) ∈ w'.repo.snapshots ∧
      ¬ Readable Demo.codec w'.repo Demo.snapA := by
  refine ⟨Demo.pruneOkA, Demo.noClashA, Demo.planA_eq, ?_, rfl, planZ_eq, ?_, ?_⟩
  · obtain ⟨s, hs, hw⟩ := C25.first_write Demo.pruneIds Demo.planA.start (Demo.clean Demo.repoA)
      Demo.planA.main startA
    have : leftA = s.world := hw.symm
    rw [this]
    exact .during s hs
  · obtain ⟨t, ht, hj⟩ := Check.run_finishes (cores := 4) (w := leftA) Demo.healthyA runZ (Nat.le_refl 4)
    exact ⟨_, .mk t (by rw [mainZ]; exact ht) hj⟩
  · intro w' h
    cases h with
    | mk s hs hj =>
      have hup := (ctl hs).joinedUp hj
      rw [mainZ] at hs
      obtain ⟨h1, _, x, _, _, h2⟩ := Check.run_replaced (w := leftA) Demo.healthyA runZ supZ supZ_ne newZ hs hup
      rw [postsZ]
      simp only [List.foldl_cons, List.foldl_nil, liveCfg_ids, applyPost]
      have hin := C24.failing_in
      refine ⟨?_, Check.no_root C24.failing_ne ?_⟩
      · rw [h1]
        refine (BMap.mem_insert_iff Demo.healthyA.snapshots_sorted).mpr (.inr ⟨?_, hin⟩)
        exact fun h => snapZ_id h.symm
      · intro b hb hk
        exact poolZ b (h2 b hb) hk

/-- What a dry run of rebuild-index leaves. -/
def leftR : World ObjectId := ⟨Demo.repoA, C28.leftBy Demo.pruneIds (Demo.clean Demo.repoA)⟩

/-- The backup of the other directory, resuming from that. -/
def planR : Plan ObjectId :=
  Demo.planOf (backupPlan Demo.codec Demo.cut leftR (Check.opened Demo.repoA) (Demo.snapsOf Demo.repoA) argsZ)

theorem planR_eq : backupPlan Demo.codec Demo.cut leftR (Check.opened Demo.repoA) (Demo.snapsOf Demo.repoA) argsZ
    = .ok planR := Demo.planOf_eq (by decide +kernel)

theorem newR : C28.NewName Demo.pruneIds Demo.repoA := C28.newName_of (by decide +kernel)

theorem listedR : ∀ e ∈ Demo.repoA.packs, ∃ f ∈ Demo.repoA.indexes,
    (e.1, Pack.manifestOf e.2) ∈ f.2.packs ∧ ∀ g ∈ Demo.repoA.indexes, f.1 ∉ g.2.supersedes := by decide +kernel

theorem goodR : C28.AllGood Demo.codec (Demo.clean Demo.repoA) where
  packs := Demo.healthyA.sound.ledger.mono (fun p bs h => by
    obtain ⟨f, h1, h2, h3⟩ := listedR _ h
    exact ⟨⟨f.1, f.2, ⟨h1, fun ⟨j, y, h4, h5⟩ => h3 _ h4 h5⟩, h2⟩, h⟩)
  same p bs bs' h := by cases h

theorem dryR : Rebuild.Instant Demo.pruneIds false (Demo.clean Demo.repoA) leftR :=
  (C28.dry_leaves_wip (ids := Demo.pruneIds) (Demo.clean Demo.repoA) Demo.healthyA.packs_sorted newR
    (.inl (by decide +kernel))).1.instant

theorem fitsZ : Fits (keep argsZ.filter argsZ.pathOf argsZ.fs) :=
  ⟨by decide, Demo.okFileMd _ _ (by decide) (by decide), by simp [LeafFits], trivial⟩

theorem okR (hL : Leftover Demo.codec Demo.pruneIds leftR) : BackupOk Demo.codec Demo.cut Demo.pruneIds leftR
    (Check.opened Demo.repoA) (Demo.snapsOf Demo.repoA) argsZ where
  chunker := Demo.cut_contract
  healthy := Demo.healthyA
  leftover := hL
  opens := Check.opened_opens Demo.healthyA
  loaded s hs := (Demo.pruneOkA.loaded s.2 s.1).mpr hs
  fits := fitsZ
  few := by decide
  sorted := by simp [argsZ, SubsSorted]
  faithful p d0 h := by
    rw [show parentSnapshot argsZ.paths (Demo.snapsOf Demo.repoA) = none by decide +kernel] at h
    cases h

theorem startR : planR.start.supersedes = BMap.keys Demo.repoA.indexes := by decide +kernel

theorem blobsR : ∀ b ∈ emptyBlob Demo.codec :: (Demo.repoA.packs.flatMap Prod.snd ++
      offered Demo.codec Demo.cut (Check.opened Demo.repoA) (Demo.snapsOf Demo.repoA) argsZ),
    ∀ b' ∈ emptyBlob Demo.codec :: (Demo.repoA.packs.flatMap Prod.snd ++
      offered Demo.codec Demo.cut (Check.opened Demo.repoA) (Demo.snapsOf Demo.repoA) argsZ),
    Demo.codec.hash b.data = Demo.codec.hash b'.data → b.data = b'.data ∧ b.kind = b'.kind := by decide +kernel

/-- When all indexes a run could write have one, new, name. -/
theorem indexOk_of {R : Repo ObjectId} {start : Index ObjectId} {cores : Nat} {ss : List (Blob ObjectId)}
    (h : decide (Demo.pruneIds.indexId start ∉ BMap.keys R.indexes ∧ Demo.pruneIds.indexId start ∉ start.supersedes ∧
      ∀ e ∈ R.indexes, Demo.pruneIds.indexId start ∉ e.2.supersedes) = true) :
    IndexOk (liveCfg Demo.pruneIds cores start) R ss := by
  rw [decide_eq_true_eq] at h
  intro x hx
  have : (liveCfg Demo.pruneIds cores start).ids.indexId x = Demo.pruneIds.indexId start := by
    have h1 := hx.sup
    show Demo.hash (1 :: x.supersedes.flatMap ObjectId.digest) = _
    rw [h1]
    rfl
  rw [this]
  exact ⟨fun ⟨j, y, h1, h2⟩ => h.2.2 (j, y) h1 h2, fun y hy => absurd (BMap.mem_keys_of_mem hy) h.1, h.2.1⟩

theorem noClashR : NoClash Demo.codec Demo.cut Demo.pruneIds 4 leftR (Check.opened Demo.repoA)
    (Demo.snapsOf Demo.repoA) argsZ planR where
  blobs := by
    have hm : ∀ b, (Stored leftR b ∨ b ∈ offered Demo.codec Demo.cut (Check.opened Demo.repoA)
        (Demo.snapsOf Demo.repoA) argsZ) → b ∈ emptyBlob Demo.codec :: (Demo.repoA.packs.flatMap Prod.snd ++
          offered Demo.codec Demo.cut (Check.opened Demo.repoA) (Demo.snapsOf Demo.repoA) argsZ) := by
      rintro b (⟨p, bs, (⟨_, h2⟩ | ⟨x, _, _, h2 | h2⟩), h3⟩ | h1)
      · exact List.mem_cons_of_mem _ (List.mem_append_left _ (List.mem_flatMap.mpr ⟨_, h2, h3⟩))
      · cases h2
      · exact List.mem_cons_of_mem _ (List.mem_append_left _ (List.mem_flatMap.mpr ⟨_, h2, h3⟩))
      · exact List.mem_cons_of_mem _ (List.mem_append_right _ h1)
    exact ⟨fun b b' g g' he => (blobsR b (hm b g) b' (g'.elim (hm b') (fun e => e ▸ List.mem_cons_self)) he).1,
      fun b b' g g' he => (blobsR b (hm b g) b' (hm b' g') (by rw [he])).2⟩
  packs := Check.packsDiffer_sound (by decide +kernel)
  indexes := indexOk_of (by decide +kernel)

/-- The snapshot it makes. -/
def snapR : Snapshot ObjectId :=
  match planR.post with
  | .ok [.putSnap s] => s
  | _ => ⟨0, [], [], [], [], Demo.codec.emptyId⟩

theorem postR : planR.post = .ok [.putSnap snapR] := by decide +kernel

/-- A dry run of rebuild-index, a backup that resumes from the index it left, and that runs to its end: now that
index, and what the backup added to it, replaces the one that was there. -/
example : ∃ w', Relation.ReflTransGen (Ran Demo.codec Demo.cut Demo.pruneIds 4) (Demo.clean Demo.repoA) w' ∧
    planR.start.supersedes = BMap.keys Demo.repoA.indexes ∧ planR.start.supersedes ≠ [] ∧
    Healthy Demo.codec Demo.pruneIds w'.repo ∧
    (Demo.pruneIds.snapId snapR, snapR) ∈ w'.repo.snapshots := by
  have h1 : Ran Demo.codec Demo.cut Demo.pruneIds 4 (Demo.clean Demo.repoA) leftR := .rebuild newR goodR dryR
  obtain ⟨_, hL⟩ := ran_step h1 Demo.healthyA (Demo.leftover_clean Demo.healthyA)
  obtain ⟨t, ht, hj⟩ := C20.finishes leftR (okR hL) noClashR rfl (Nat.le_refl 4) BMap.sorted_nil planR_eq _ .refl
  have h2 : Ran Demo.codec Demo.cut Demo.pruneIds 4 leftR
      ⟨planR.posts.foldl (applyPost Demo.pruneIds) t.world.repo, t.world.cwd⟩ :=
    .backup (fun _ hL => okR hL) noClashR rfl planR_eq (.after t planR.posts [] ht hj (List.append_nil _).symm)
  have h3 := ran_step h2 Demo.healthyA hL
  exact ⟨_, .tail (.single h1) h2, startR, by decide +kernel, h3.1,
    (C20.snapshot_holds_partial leftR _ (okR hL) noClashR planR_eq snapR postR (.mk t ht hj)).1⟩

/-! ## A backup of what a prune has removed

Here nothing is interrupted. An index is named by its contents. A backup that stores what was
stored before, and pruned, writes the very index that the prune's index says is superseded
(`src/index.rs:199-266`). -/

/-- Whatever the repository: putting an index whose ID is superseded, and that supersedes nothing
itself, lists nothing more. -/
theorem superseded_adds_nothing {Id : Type} [LinearOrder Id] (files : BMap Id (Index Id)) (i : Id) (x : Index Id)
    (hs : BMap.Sorted files) (hsup : Superseded files i) (hnew : i ∉ BMap.keys files) (hx : x.supersedes = [])
    (p : Id) (m : Manifest Id) : Listed (BMap.insert i x files) p m ↔ Listed files p m := by
  have hmem : ∀ j y, (j, y) ∈ BMap.insert i x files ↔ (j = i ∧ y = x) ∨ (j, y) ∈ files := by
    intro j y
    rw [BMap.mem_insert_iff hs]
    constructor
    · rintro (h | h)
      · exact .inl h
      · exact .inr h.2
    · rintro (h | h)
      · exact .inl h
      · exact .inr ⟨fun e => hnew (e ▸ BMap.mem_keys_of_mem h), h⟩
  have hsu : ∀ k, Superseded (BMap.insert i x files) k ↔ Superseded files k := by
    intro k
    constructor
    · rintro ⟨j, y, h1, h2⟩
      rcases (hmem j y).mp h1 with ⟨rfl, rfl⟩ | h1
      · rw [hx] at h2; cases h2
      · exact ⟨j, y, h1, h2⟩
    · rintro ⟨j, y, h1, h2⟩
      exact ⟨j, y, (hmem j y).mpr (.inr h1), h2⟩
  constructor
  · rintro ⟨j, y, ⟨h1, h2⟩, h3⟩
    rw [hsu] at h2
    rcases (hmem j y).mp h1 with ⟨rfl, rfl⟩ | h1
    · exact absurd hsup h2
    · exact ⟨j, y, ⟨h1, h2⟩, h3⟩
  · rintro ⟨j, y, ⟨h1, h2⟩, h3⟩
    exact ⟨j, y, ⟨(hmem j y).mpr (.inr h1), by rwa [hsu]⟩, h3⟩

/-- IDs by the toy hash. -/
def fullIds : Ids ObjectId := { Demo.ids with
  indexId := fun x => Demo.hash (1 :: x.supersedes.flatMap ObjectId.digest ++ 2 :: x.packs.flatMap (fun e => e.1.digest)) }

/-- A directory with a file. -/
def args1 : BackupArgs := { Demo.args0 with fs := .leaf [97] (Demo.fileMd 3 5) (.file [1, 2, 3]) .nil }

/-- The same, another day. -/
def args4 : BackupArgs := { args1 with now := 2000 }

/-- The repository after a run that made one pack of each kind. -/
def ranTo (start : Index ObjectId) (R : Repo ObjectId) (ss : List (Blob ObjectId)) : Repo ObjectId × Index ObjectId :=
  withPack fullIds (ofKind .tree ss) (withPack fullIds (ofKind .chunk ss) (R, start))

/-- The same with its index, and after what follows the join. -/
def endedAt (plan : Plan ObjectId) (R : Repo ObjectId) : Repo ObjectId :=
  plan.posts.foldl (applyPost fullIds) (putItem (ranTo plan.start R (sends plan.main)).1
    (.index (fullIds.indexId (ranTo plan.start R (sends plan.main)).2) (ranTo plan.start R (sends plan.main)).2))

/-- What makes `endedAt` an end. -/
def canEnd (plan : Plan ObjectId) (R : Repo ObjectId) : Bool :=
  decide (plan.main = mainOf [] (sends plan.main)) &&
  decide (ofKind .chunk (sends plan.main) ≠ [] →
    fullIds.packId (Pack.manifestOf (ofKind .chunk (sends plan.main))) ∉ BMap.keys plan.start.packs) &&
  decide (ofKind .tree (sends plan.main) ≠ [] →
    fullIds.packId (Pack.manifestOf (ofKind .tree (sends plan.main))) ∉
      BMap.keys (withPack fullIds (ofKind .chunk (sends plan.main)) (R, plan.start)).2.packs) &&
  !(ranTo plan.start R (sends plan.main)).2.isEmpty

theorem ends {plan : Plan ObjectId} {R : Repo ObjectId} (h : canEnd plan R = true) :
    Finished (liveCfg fullIds 4 plan.start) (Demo.clean R) plan.main plan.posts (Demo.clean (endedAt plan R)) := by
  simp only [canEnd, Bool.and_eq_true, decide_eq_true_eq, Bool.not_eq_true'] at h
  obtain ⟨⟨⟨h1, h2⟩, h3⟩, h4⟩ := h
  obtain ⟨s, hs, hj, hw⟩ := simple_run fullIds plan.start R (sends plan.main) h2 h3 h4
  rw [← h1] at hs
  have := Finished.mk (post := plan.posts) s hs hj
  rw [hw] at this
  exact this

/-- The first backup. -/
def plan1 : Plan ObjectId := Demo.planOf (backupPlan Demo.codec Demo.cut Demo.world0 Demo.src0 [] args1)

theorem plan1_eq : backupPlan Demo.codec Demo.cut Demo.world0 Demo.src0 [] args1 = .ok plan1 :=
  Demo.planOf_eq (by decide +kernel)

def repo1 : Repo ObjectId := endedAt plan1 ⟨[], [], []⟩

theorem healthy1 : Healthy Demo.codec fullIds repo1 := Check.healthy_sound (k := 2) (by decide +kernel)

/-- Its snapshot is forgotten. -/
def repo2 : Repo ObjectId := { repo1 with snapshots := [] }

theorem forgotten : forget (fun _ => true) false (Demo.snapsOf repo1) [ascii "LAST"] repo1 = (repo2, true) := by
  decide +kernel

theorem healthy2 : Healthy Demo.codec fullIds repo2 := Check.healthy_sound (k := 2) (by decide +kernel)

/-- The prune. -/
def plan3 : Plan ObjectId :=
  Demo.prunePlanOf (prunePlan Demo.codec Demo.env (Demo.clean repo2) (Check.opened repo2) [] false)

theorem plan3_eq : prunePlan Demo.codec Demo.env (Demo.clean repo2) (Check.opened repo2) [] false = .ok (some plan3) :=
  Demo.prunePlanOf_eq (by decide +kernel)

def repo3 : Repo ObjectId := endedAt plan3 repo2

theorem healthy3 : Healthy Demo.codec fullIds repo3 := Check.healthy_sound (k := 2) (by decide +kernel)

/-- The second backup. -/
def plan4 : Plan ObjectId :=
  Demo.planOf (backupPlan Demo.codec Demo.cut (Demo.clean repo3) (Check.opened repo3) [] args4)

theorem plan4_eq : backupPlan Demo.codec Demo.cut (Demo.clean repo3) (Check.opened repo3) [] args4 = .ok plan4 :=
  Demo.planOf_eq (by decide +kernel)

def repo4 : Repo ObjectId := endedAt plan4 repo3

theorem no_packs3 : repo3.packs = [] ∧ repo3.snapshots = [] := by decide +kernel

theorem back_again : ∃ e ∈ repo1.indexes, e ∈ repo4.indexes ∧ e.2.supersedes = [] ∧ e.2.packs.length = 2 ∧
    ∃ e' ∈ repo3.indexes, e' ∈ repo4.indexes ∧ e.1 ∈ e'.2.supersedes := by decide +kernel

theorem snaps4 : ∃ e ∈ repo4.snapshots, e.2.tree ≠ Demo.codec.emptyId := by decide +kernel

theorem lost4 : Check.blobs repo4 = [] := by decide +kernel

theorem can1 : canEnd plan1 ⟨[], [], []⟩ = true := by decide +kernel
theorem can3 : canEnd plan3 repo2 = true := by decide +kernel
theorem can4 : canEnd plan4 repo3 = true := by decide +kernel

/-- A directory is backed up to an empty repository; the snapshot is forgotten; a prune empties the
repository; the directory is backed up again. Each command finishes without an error and starts
from a repository in good order. The last index is, byte for byte, the first; the prune's says it
is superseded; so the new snapshot cannot be read. -/
theorem pruned_then_backed_up_loses :
    backupPlan Demo.codec Demo.cut (Demo.clean ⟨[], [], []⟩) Demo.src0 [] args1 = .ok plan1 ∧
    Finished (liveCfg fullIds 4 plan1.start) (Demo.clean ⟨[], [], []⟩) plan1.main plan1.posts (Demo.clean repo1) ∧
    Healthy Demo.codec fullIds repo1 ∧
    forget (fun _ => true) false (Demo.snapsOf repo1) [ascii "LAST"] repo1 = (repo2, true) ∧
    Healthy Demo.codec fullIds repo2 ∧
    prunePlan Demo.codec Demo.env (Demo.clean repo2) (Check.opened repo2) [] false = .ok (some plan3) ∧
    Finished (liveCfg fullIds 4 plan3.start) (Demo.clean repo2) plan3.main plan3.posts (Demo.clean repo3) ∧
    Healthy Demo.codec fullIds repo3 ∧
    backupPlan Demo.codec Demo.cut (Demo.clean repo3) (Check.opened repo3) [] args4 = .ok plan4 ∧
    Finished (liveCfg fullIds 4 plan4.start) (Demo.clean repo3) plan4.main plan4.posts (Demo.clean repo4) ∧
    (∃ i x, (i, x) ∈ repo1.indexes ∧ (i, x) ∈ repo4.indexes ∧ Superseded repo4.indexes i) ∧
    ∃ i sn, (i, sn) ∈ repo4.snapshots ∧ ¬ Readable Demo.codec repo4 sn := by
  refine ⟨plan1_eq, ends can1, healthy1, forgotten, healthy2, plan3_eq, ends can3, healthy3, plan4_eq, ends can4,
    ?_, ?_⟩
  · obtain ⟨e, h1, h2, _, _, e', _, h3, h4⟩ := back_again
    exact ⟨e.1, e.2, h1, h2, e'.1, e'.2, h3, h4⟩
  · obtain ⟨e, h1, h2⟩ := snaps4
    refine ⟨e.1, e.2, h1, Check.no_root h2 (fun b hb => ?_)⟩
    have := (Check.has_iff.mp hb).2
    rw [lost4] at this
    cases this

end Backpak.C27
