import Verif.Props.C103

/-!
# C104 - When a backup makes a snapshot

The full claim is: a backup that runs to its end makes a snapshot, except in a dry run, if there is nothing to
back up and `--allow-empty` is not given, or if the last snapshot is the same and `--allow-repeat` is not given.

Missing: `--allow-repeat` has no effect (`repeat_ignored`, `repeat_refused`). What a backup that makes no
snapshot does if there is something to resume is in C69.
-/

namespace Backpak.C104

open Spec Pipeline

variable {Id : Type} [LinearOrder Id] {C : Codec Id} {cut : Bytes → Nat} {ids : Ids Id} {cores : Nat}
  {src : Source Id} {snaps : List (Snap Id)} {a : BackupArgs} {plan : Plan Id}

/-- The last snapshot is of the same paths, by the same author, with the same tags, and holds the file tree that is
walked. -/
def LastSame (C : Codec Id) (R : Repo Id) (snaps : List (Snap Id)) (a : BackupArgs) : Prop :=
  ∃ sn i, snaps.getLast? = some (sn, i) ∧ sn.author = a.author ∧ sn.tags = a.tags ∧ sn.paths = a.paths ∧
    Holds C R sn.tree (arrange (keep a.filter a.pathOf a.fs))

/-- A walk in which everything is left out does nothing. -/
theorem walk_nothing {T I S : Type} (v : Visitor Id T I S) {filter : Path → Bool} {F : Forest Id} (d : Dir Bytes) :
    ∀ (pathOf : Name → Path) (pt : Option (Tree Id)) (i : I) (s : S), keep filter pathOf d = .nil →
      walkFs v filter F pathOf pt d i s = .ok (i, s) := by
  induction d with
  | nil => intro pathOf pt i s _; rfl
  | leaf n md lf rest ih =>
    intro pathOf pt i s h
    unfold walkFs
    rw [Spec.keep] at h
    split at h
    · rename_i hc
      split
      · exact ih _ _ _ _ h
      · rename_i hf
        rcases hc with hc | rfl
        · exact absurd hc hf
        · exact ih _ _ _ _ h
    · cases h
  | dir n md sub rest _ ih =>
    intro pathOf pt i s h
    unfold walkFs
    rw [Spec.keep] at h
    split at h
    · rename_i hc
      rw [if_pos hc]
      exact ih _ _ _ _ h
    · cases h

/-- If there is nothing to back up the tree is the empty one. -/
theorem nothing_empty (w : World Id) (hp : backupPlan C cut w src snaps a = .ok plan)
    (hk : keep a.filter a.pathOf a.fs = .nil) :
    sends plan.main = [] ∧ plan.post = backupPost C a snaps plan.start [] C.emptyId := by
  obtain ⟨F, pr, packed, root, c, h1, _, h3, h4⟩ := C103.behind w hp
  unfold backupCounted walkTop at h1
  rw [walk_nothing _ _ _ _ _ _ hk] at h1
  simp only [countingVisitor, if_true] at h1
  cases h1
  rw [h3] at h4 ⊢
  exact ⟨rfl, h4⟩

/-- Nothing to back up, and `--allow-empty` not given: no snapshot. -/
theorem none_if_empty (w : World Id) (hp : backupPlan C cut w src snaps a = .ok plan)
    (hk : keep a.filter a.pathOf a.fs = .nil) (he : a.allowEmpty = false) (sn : Snapshot Id) :
    plan.post ≠ .ok [.putSnap sn] := by
  rw [(nothing_empty w hp hk).2]
  unfold backupPost
  simp only [he, and_self, if_true]
  split <;> simp

/-- The last snapshot is the same: no snapshot. -/
theorem none_if_same (w : World Id) (hB : BackupOk C cut ids w src snaps a)
    (hp : backupPlan C cut w src snaps a = .ok plan) (hs : LastSame C w.repo snaps a) (sn : Snapshot Id) :
    plan.post ≠ .ok [.putSnap sn] := by
  obtain ⟨p, i, h1, h2, h3, h4, h5⟩ := hs
  rw [(C69.unchanged_sends_nothing w hB hp p (C69.last_is_parent h1 h4) h5).2.1, C69.post_same h1 h4 h2 h3]
  split <;> simp

/-- A dry run: no snapshot. -/
theorem none_if_dry (w : World Id) (hp : backupPlan C cut w src snaps a = .ok plan) (hd : a.dryRun = true)
    (sn : Snapshot Id) : plan.post ≠ .ok [.putSnap sn] := by
  obtain ⟨root, r, _, h⟩ := C103.counts w hp
  rw [h]
  unfold backupPost
  simp only [hd, if_true]
  repeat' split
  all_goals simp

/-- A backup that runs to its end makes a snapshot if and only if there is something to back up or empty snapshots are
allowed, and the last snapshot is not the same. -/
theorem makes_iff_partial (w w' : World Id) (hB : BackupOk C cut ids w src snaps a)
    (hN : NoClash C cut ids cores w src snaps a plan) (hd : a.dryRun = false)
    (hp : backupPlan C cut w src snaps a = .ok plan)
    (h : Finished (C13.cfg ids cores a plan) w plan.main plan.posts w') :
    (∃ sn, plan.post = .ok [.putSnap sn]) ↔
      (keep a.filter a.pathOf a.fs ≠ .nil ∨ a.allowEmpty = true) ∧ ¬ LastSame C w.repo snaps a := by
  constructor
  · rintro ⟨sn, hsn⟩
    refine ⟨?_, fun hs => none_if_same w hB hp hs sn hsn⟩
    by_contra hc
    push Not at hc
    exact none_if_empty w hp hc.1 (by simpa using hc.2) sn hsn
  · rintro ⟨h1, h2⟩
    rcases C20.makes_snapshot_partial w w' hB hN hd hp h with h3 | ⟨h3, h4⟩ | h3
    · exact h3
    · rcases h1 with h1 | h1
      · exact absurd h3 h1
      · rw [h4] at h1; cases h1
    · exact absurd h3 h2

/-- The snapshots afterwards: the same and a new one, or the same. -/
theorem afterwards (w w' : World Id) (hB : BackupOk C cut ids w src snaps a)
    (hN : NoClash C cut ids cores w src snaps a plan) (hd : a.dryRun = false)
    (hp : backupPlan C cut w src snaps a = .ok plan)
    (h : Finished (C13.cfg ids cores a plan) w plan.main plan.posts w') :
    (∃ sn, plan.post = .ok [.putSnap sn] ∧ w'.repo.snapshots = BMap.insert (ids.snapId sn) sn w.repo.snapshots) ∨
    ((∀ sn, plan.post ≠ .ok [.putSnap sn]) ∧ w'.repo.snapshots = w.repo.snapshots) := by
  have hcfg : C13.cfg ids cores a plan = liveCfg ids cores plan.start := by
    simp [C13.cfg, liveCfg, hd]
  cases h with
  | mk s hs hj =>
    rw [hcfg] at hs
    obtain ⟨_, _, g3, _⟩ := backup_run hB hN hp hd hs
    obtain ⟨root, r, _, hpost⟩ := C103.counts w hp
    cases hx : plan.post with
    | error e =>
      refine .inr ⟨fun sn => by simp, ?_⟩
      simp only [Plan.posts, hx, List.foldl_nil]
      exact g3
    | ok l =>
      rw [hx] at hpost
      rcases post_cases hpost.symm with rfl | ⟨_, rfl⟩
      · refine .inr ⟨fun sn => by simp, ?_⟩
        simp only [Plan.posts, hx, List.foldl_nil]
        exact g3
      · refine .inl ⟨_, rfl, ?_⟩
        simp only [Plan.posts, hx, List.foldl_cons, List.foldl_nil, applyPost]
        rw [g3]
        simp [C13.cfg]

/-- Only the last snapshot matters: a backup of what an earlier one holds makes a snapshot if the last is of other
paths. -/
theorem earlier_repeats (w w' : World Id) (hB : BackupOk C cut ids w src snaps a)
    (hN : NoClash C cut ids cores w src snaps a plan) (hd : a.dryRun = false)
    (hp : backupPlan C cut w src snaps a = .ok plan)
    (h : Finished (C13.cfg ids cores a plan) w plan.main plan.posts w')
    (hk : keep a.filter a.pathOf a.fs ≠ .nil)
    (hl : ∀ sn i, snaps.getLast? = some (sn, i) → sn.paths ≠ a.paths) :
    ∃ sn, plan.post = .ok [.putSnap sn] := by
  refine (makes_iff_partial w w' hB hN hd hp h).mpr ⟨.inl hk, ?_⟩
  rintro ⟨sn, i, h1, _, _, h4, _⟩
  exact hl sn i h1 h4

/-- `--allow-repeat` changes nothing. -/
theorem repeat_ignored (w : World Id) (b : Bool) :
    backupPlan C cut w src snaps { a with allowRepeat := b } = backupPlan C cut w src snaps a := rfl

/-- A backup with `--allow-repeat` that makes no snapshot, though nothing is amiss. -/
theorem repeat_refused :
    let a : BackupArgs := { C69.argsA with allowRepeat := true }
    BackupOk Demo.codec Demo.cut Demo.pruneIds (Demo.clean Demo.repoA) (Check.opened Demo.repoA) (Demo.snapsOf Demo.repoA) a ∧
    a.dryRun = false ∧ keep a.filter a.pathOf a.fs ≠ .nil ∧
    ∃ plan, backupPlan Demo.codec Demo.cut (Demo.clean Demo.repoA) (Check.opened Demo.repoA) (Demo.snapsOf Demo.repoA) a = .ok plan ∧
      plan.post = .ok [] := by
  have h := C69.okA _ (Demo.leftover_clean Demo.healthyA)
  refine ⟨⟨h.chunker, h.healthy, h.leftover, h.opens, h.loaded, h.fits, h.few, h.sorted, h.faithful⟩, rfl, by decide +kernel, C69.planSame, ?_, ?_⟩
  · rw [repeat_ignored]
    exact C69.planSame_eq
  · exact (C69.unchanged_adds_nothing_partial (ids := Demo.pruneIds) (cores := 4) _
      (C69.okA _ (Demo.leftover_clean Demo.healthyA)) C69.planSame_eq _ _ C69.lastA rfl rfl rfl C69.holdsA rfl).2.1

/-- A first backup, which makes a snapshot. -/
example : ∃ w', Finished (C13.cfg Demo.ids 4 Demo.args0 Demo.plan0) Demo.world0 Demo.plan0.main Demo.plan0.posts w' ∧
    (∃ sn, Demo.plan0.post = .ok [.putSnap sn]) := by
  obtain ⟨t, ht, hj⟩ := C20.finishes Demo.world0 Demo.backupOk0 Demo.noClash0 rfl (Nat.le_refl 4)
    BMap.sorted_nil Demo.plan0_eq _ .refl
  have hf := Finished.mk (post := Demo.plan0.posts) t ht hj
  refine ⟨_, hf, (makes_iff_partial Demo.world0 _ Demo.backupOk0 Demo.noClash0 rfl Demo.plan0_eq hf).mpr
    ⟨.inl (by decide +kernel), ?_⟩⟩
  rintro ⟨sn, i, h, _⟩
  cases h

/-- A backup all of which is skipped makes none. -/
example : ∃ p, backupPlan Demo.codec Demo.cut Demo.world0 Demo.src0 [] C103.argsNone = .ok p ∧
    ∀ sn, p.post ≠ .ok [.putSnap sn] := by
  have hp := Demo.planOf_eq (r := backupPlan Demo.codec Demo.cut Demo.world0 Demo.src0 [] C103.argsNone) (by decide +kernel)
  exact ⟨_, hp, none_if_empty Demo.world0 hp (by decide +kernel) rfl⟩

/-- The backup of what the last snapshot holds meets the hypotheses of `none_if_same`. -/
example : LastSame Demo.codec Demo.repoA (Demo.snapsOf Demo.repoA) C69.argsA :=
  ⟨_, _, C69.lastA, rfl, rfl, rfl, C69.holdsA⟩

end Backpak.C104
