import Verif.Props.C27
import Verif.Props.C56

/-!
# C97 - A snapshot gives back what was backed up, whatever has been done since

`C27.Ran` says what may happen between two instants: backups, copies into the repository, filter-snapshot,
forgetting, rebuild-index and prunes, interrupted or not.
-/

namespace Backpak.C97

open Spec Pipeline

variable {Id : Type} [LinearOrder Id] {C : Codec Id} {cut : Bytes → Nat} {ids : Ids Id} {cores : Nat}
  {src : Source Id} {snaps : List (Snap Id)} {a : BackupArgs} {plan : Plan Id} {w w' : World Id}

/-- This snapshot is forgotten, and perhaps others. -/
def Forgets (i : Id) (s : Snapshot Id) (u v : World Id) : Prop :=
  (i, s) ∉ v.repo.snapshots ∧ ∃ l, l.Sublist u.repo.snapshots ∧ v = ⟨{ u.repo with snapshots := l }, u.cwd⟩

/-- Something is done, but this snapshot is not forgotten nor replaced by another with the same ID. -/
def Keeping (C : Codec Id) (cut : Bytes → Nat) (ids : Ids Id) (cores : Nat) (i : Id) (s : Snapshot Id)
    (u v : World Id) : Prop :=
  C27.Ran C cut ids cores u v ∧ ¬ Forgets i s u v ∧ ∀ s', (i, s') ∈ v.repo.snapshots → s' = s

/-- What a backup that fails has in the repository so far. -/
theorem failing_adds (hB : BackupOk C cut ids w src snaps a)
    (hN : NoClash C cut ids cores w src snaps a plan) (hd : a.dryRun = false)
    (hp : backupPlan C cut w src snaps a = .ok plan)
    {here : List Id} (hr : resumeFrom w = .ok (plan.start, here)) {sent : List (Blob Id)}
    (hpre : sent <+: sends plan.main) {s : State Id}
    (h : Reachable (C13.cfg ids cores a plan) w (mainOf here sent) s) :
    s.world.repo.snapshots = w.repo.snapshots ∧ ∀ b, Has C w.repo b → Has C s.world.repo b := by
  obtain ⟨F, known, here', root, L, hF, hk, hr', hb, hoff, hm, hpost⟩ := plan_ok hp
  have hcfg : C13.cfg ids cores a plan = liveCfg ids cores plan.start := by simp [C13.cfg, liveCfg, hd]
  rw [hcfg] at h
  rw [hr] at hr'
  have hhere : here = here' := by cases hr'; rfl
  subst hhere
  have hu := hN.blobs
  rw [hoff] at hu
  obtain ⟨hfresh, _⟩ := offer_fresh hB.leftover
    (packed_iff hB.healthy.sound hB.leftover hB.opens hk hr) (offered_made hB.runs hF hb) hu
  have hmain : plan.main = mainOf here
      (L.foldl offer ⟨BMap.keys known ++ listedIds plan.start, []⟩).sent := by
    rw [hm, hd]; rfl
  have hpk := hN.packs
  have hix := hN.indexes
  rw [hmain, sends_mainOf] at hix hpre
  rw [hmain] at hpk
  obtain ⟨l, hl⟩ := id hpre
  obtain ⟨_, _, g3, g4, _⟩ := add_run hB.healthy hB.leftover hr (hfresh.of_perm (.of_eq hl))
    (fun x y hx hy => hpk x y (hx.imp id (Or.imp id (C13.formedBy_prefix hpre)))
      (hy.imp id (Or.imp id (C13.formedBy_prefix hpre)))) (C13.indexOk_prefix hpre hix) h
  exact ⟨g3, g4⟩

/-- At every instant of a backup: nothing is lost that could be found, and all snapshots are there that were. -/
theorem backup_adds (hB : BackupOk C cut ids w src snaps a)
    (hN : NoClash C cut ids cores w src snaps a plan) (hd : a.dryRun = false)
    (hp : backupPlan C cut w src snaps a = .ok plan)
    (h : Instant (C13.cfg ids cores a plan) w plan.main plan.posts w') :
    (∀ b, Has C w.repo b → Has C w'.repo b) ∧
    ∀ i s, (i, s) ∈ w.repo.snapshots → (∀ s', (i, s') ∈ w'.repo.snapshots → s' = s) →
      (i, s) ∈ w'.repo.snapshots := by
  obtain ⟨F, known, here, root, L, _, _, _, _, _, _, hpost⟩ := plan_ok hp
  have hcfg : C13.cfg ids cores a plan = liveCfg ids cores plan.start := by simp [C13.cfg, liveCfg, hd]
  rw [hcfg] at h
  cases h with
  | during s hs =>
    obtain ⟨_, _, g3, g4, _⟩ := backup_run hB hN hp hd hs
    exact ⟨g4, fun i s hi _ => by rw [g3]; exact hi⟩
  | after s done rest hs hj hsp =>
    obtain ⟨g1, _, g3, g4, _⟩ := backup_run hB hN hp hd hs
    have none : ∀ i s', (i, s') ∈ w.repo.snapshots → (i, s') ∈ s.world.repo.snapshots := by
      rw [g3]; exact fun _ _ h => h
    rcases C13.posts_cases (C := C) (snaps := snaps) (a := a) ⟨_, _, _, hpost⟩ with h0 | ⟨sn, _, _, h0⟩
    · rw [h0] at hsp
      obtain ⟨rfl, _⟩ := List.append_eq_nil_iff.mp hsp.symm
      exact ⟨g4, fun i s' hi _ => none _ _ hi⟩
    · rw [h0] at hsp
      rcases List.append_eq_singleton_iff.mp hsp.symm with ⟨rfl, _⟩ | ⟨rfl, _⟩
      · exact ⟨g4, fun i s' hi _ => none _ _ hi⟩
      · refine ⟨fun b hb => g4 b hb, fun i s' hi hone => ?_⟩
        have hiff : ∀ t, (i, t) ∈ BMap.insert (ids.snapId sn) sn s.world.repo.snapshots ↔ _ :=
          fun t => BMap.mem_insert_iff g1.snapshots_sorted
        show (i, s') ∈ BMap.insert (ids.snapId sn) sn s.world.repo.snapshots
        by_cases he : i = ids.snapId sn
        · have := (hiff sn).mpr (.inl ⟨he, rfl⟩)
          rwa [← hone sn this]
        · exact (hiff s').mpr (.inr ⟨he, none _ _ hi⟩)

/-- Whatever is done, a snapshot that was there holds what it held, and is there unless it was forgotten. -/
theorem step_partial (h : C27.Ran C cut ids cores w w') (hH : Healthy C ids w.repo) (hL : Leftover C ids w) {i : Id}
    {s : Snapshot Id} (hi : (i, s) ∈ w.repo.snapshots) (hone : ∀ s', (i, s') ∈ w'.repo.snapshots → s' = s) :
    (∀ d, Holds C w.repo s.tree d → Holds C w'.repo s.tree d) ∧
    ((i, s) ∈ w'.repo.snapshots ∨ Forgets i s w w') := by
  cases h with
  | backup h1 h2 h3 h4 h5 =>
    obtain ⟨g1, g2⟩ := backup_adds (h1 hH hL) h2 h3 h4 h5
    exact ⟨fun d hd => has_mono_holds g1 hd, .inl (g2 i s hi hone)⟩
  | failing h1 h2 h3 h4 h5 h6 h7 =>
    obtain ⟨g1, g2⟩ := failing_adds (h1 hH hL) h2 h3 h4 h5 h6 h7
    exact ⟨fun d hd => has_mono_holds g2 hd, .inl (by rw [g1]; exact hi)⟩
  | copy h1 h2 h3 h4 =>
    obtain ⟨_, _, a3, a4⟩ := C30.always_healthy_partial _ _ _ (h1 hH hL) h2 h3 h4
    exact ⟨fun d hd => a4 _ d hd, .inl (a3 i s hi)⟩
  | filter h1 h2 h3 h4 =>
    obtain ⟨_, a2, a3⟩ := C31.others_untouched_partial _ _ (h1 hH hL) h2 h3 h4
    exact ⟨fun d hd => a3 _ d hd, .inl (a2 i s hi)⟩
  | forget h1 =>
    rename_i l
    refine ⟨fun d hd => has_mono_holds (R := w.repo) (R' := { w.repo with snapshots := l }) (fun b hb => hb) hd, ?_⟩
    by_cases hm : (i, s) ∈ l
    · exact .inl hm
    · exact .inr ⟨hm, l, h1, rfl⟩
  | rebuild h1 h2 h3 =>
    obtain ⟨_, a2, a3⟩ := C28.findable_stays (C := C) _ _ hH.packs_sorted hH.indexes_sorted h1 h3
    exact ⟨fun d hd => has_mono_holds a3 hd, .inl (by rw [a2]; exact hi)⟩
  | prune h0 h1 h2 h3 h4 h5 h6 h7 h8 =>
    obtain ⟨a1, a2, _⟩ := C25.resumed_finished_partial hH (hL.prune h0) h1 h2 h3 h4 h5 h6 h7 h8
    exact ⟨fun d hd => a2 i s d hi hd, .inl (by rw [a1]; exact hi)⟩

/-- After any history in which a snapshot is not forgotten, it is there and holds what it held. -/
theorem history_partial (hH : Healthy C ids w.repo) (hL : Leftover C ids w) {i : Id} {s : Snapshot Id}
    (hi : (i, s) ∈ w.repo.snapshots)
    (h : Relation.ReflTransGen (Keeping C cut ids cores i s) w w') :
    Healthy C ids w'.repo ∧ Leftover C ids w' ∧ (i, s) ∈ w'.repo.snapshots ∧
    ∀ d, Holds C w.repo s.tree d ↔ Holds C w'.repo s.tree d := by
  suffices key : Healthy C ids w'.repo ∧ Leftover C ids w' ∧ (i, s) ∈ w'.repo.snapshots ∧
      ∀ d, Holds C w.repo s.tree d → Holds C w'.repo s.tree d by
    obtain ⟨k1, k2, k3, k4⟩ := key
    refine ⟨k1, k2, k3, fun d => ⟨k4 d, fun hd => ?_⟩⟩
    obtain ⟨d0, h0⟩ := hH.readable i s hi
    obtain rfl := holds_one k1.sound (k4 d0 h0) hd
    exact h0
  induction h with
  | refl => exact ⟨hH, hL, hi, fun _ h => h⟩
  | tail _ hs ih =>
    obtain ⟨k1, k2, k3, k4⟩ := ih
    obtain ⟨g1, g2⟩ := step_partial hs.1 k1 k2 k3 hs.2.2
    obtain ⟨g3, g4⟩ := C27.ran_step hs.1 k1 k2
    exact ⟨g3, g4, g2.resolve_right hs.2.1, fun d hd => g1 d (k4 d hd)⟩

/-- And so it does while prunes are under way after that, each stopped anywhere. -/
theorem pruning_partial (hH : Healthy C ids w.repo) (hL : Leftover C ids w) {i : Id} {s : Snapshot Id}
    (hi : (i, s) ∈ w.repo.snapshots) {u : World Id}
    (h : Relation.ReflTransGen (Keeping C cut ids cores i s) w u)
    (hw : ∀ x, u.cwd.wip = some x → ¬ Replaces u x) (hE : ∀ x, ¬ Has C u.repo ⟨x, C.emptyId, .chunk⟩)
    (hp : Relation.ReflTransGen (C25.Pruned C ids cores) u w') :
    Healthy C ids w'.repo ∧ (i, s) ∈ w'.repo.snapshots ∧
    ∀ d, Holds C w.repo s.tree d ↔ Holds C w'.repo s.tree d := by
  obtain ⟨k1, k2, k3, k4⟩ := history_partial hH hL hi h
  obtain ⟨a1, a2, a3, _, _⟩ := C25.resumed_keeps_partial k1 (k2.prune hw) hE hp
  refine ⟨a1, by rw [a2]; exact k3, fun d => ⟨fun hd => a3 i s d k3 ((k4 d).mp hd), fun hd => ?_⟩⟩
  obtain ⟨d0, h0⟩ := hH.readable i s hi
  obtain rfl := holds_one a1.sound (a3 i s d0 k3 ((k4 d0).mp h0)) hd
  exact h0

/-- A snapshot that is copied without skipping anything to another repository holds there what it holds here,
after any history of that one in which it is not forgotten. -/
theorem copied_partial {idsB : Ids Id} {coresB : Nat} {envB : CacheEnv Id} {R : Repo Id} {srcA srcB : Source Id}
    {copied : List (Snap Id)} {planB : Plan Id} (x y : World Id) {s : Snap Id}
    (hC : CopyOk C envB idsB R x srcA srcB copied) (hin : s ∈ copied)
    (hNB : CopyNoClash C idsB coresB R x srcA copied (fun _ => true) planB)
    (hpB : copyPlan C envB x srcA srcB copied (fun _ => true) false = .ok planB)
    (hfB : Finished (liveCfg idsB coresB planB.start) x planB.main planB.posts y)
    (histB : Relation.ReflTransGen (Keeping C cut idsB coresB (idsB.snapId s.1) s.1) y w') :
    Healthy C idsB w'.repo ∧ (idsB.snapId s.1, s.1) ∈ w'.repo.snapshots ∧
    ∀ d, Holds C R s.1.tree d ↔ Holds C w'.repo s.1.tree d := by
  obtain ⟨b1, b2⟩ : Healthy C idsB y.repo ∧ Leftover C idsB y := by
    cases hfB with
    | mk s hs hj =>
      obtain ⟨c1, c2, _⟩ := C30.always_healthy_partial _ x _ hC hNB hpB
        (.after s planB.posts [] hs hj (List.append_nil _).symm)
      exact ⟨c1, c2⟩
  obtain ⟨d0, _, e1, _, _, e4⟩ := C30.copied_partial _ x y hC hNB hpB hfB _ hin
  obtain ⟨e5, e6⟩ := e4 (fun _ => rfl)
  obtain ⟨m1, _, m3, m4⟩ := history_partial b1 b2 e5 histB
  refine ⟨m1, m3, fun d => ⟨fun hd => ?_, fun hd => ?_⟩⟩
  · obtain rfl := holds_one hC.source.sound e1 hd
    exact (m4 _).mp e6
  · obtain rfl := holds_one m1.sound ((m4 _).mp e6) hd
    exact e1

/-! ## Backing up, and restoring much later -/

variable {look₀ look : Look} {dangling : Path → Bool} {args : RestoreArgs} {cenv : CacheEnv Id} {env : FsEnv}
  {dst : Path} {md : Meta}

/-- A backup that finished with a new snapshot; then any history in which that snapshot is not forgotten; then
a restore of it to an empty directory, by any process that opens the repository. The restore succeeds, and gives
back what was backed up. -/
theorem round_trip_partial (u : World Id) (hB : BackupOk C cut ids w src snaps a)
    (hN : NoClash C cut ids cores w src snaps a plan)
    (hp : backupPlan C cut w src snaps a = .ok plan) (sn : Snapshot Id)
    (hsn : plan.post = .ok [.putSnap sn])
    (hf : Finished (C13.cfg ids cores a plan) w plan.main plan.posts u)
    (hist : Relation.ReflTransGen (Keeping C cut ids cores (ids.snapId sn) sn) u w')
    (hg : Given look₀ a) {src' : Source Id} (ho : Opens w'.repo src') (he : C33.EnvOk cenv)
    (hpx : args.permissions = true → AllPosix a.fs) (hdt : args.times = true → AllMeta Datable a.fs)
    (hout : args.output = some dst) {d : Disk Id} (hd : EmptyDir look dangling d.fs dst md)
    (hr : d.reader = ReaderState.new) (h1 : OneClash C w'.repo a.paths dst md) (hw : args.dryRun = false)
    (hdir : args.delete = true ∨ ∀ p, a.paths = [p] → ∃ m sub, look₀ p = some ((m, none), sub)) :
    (ids.snapId sn, sn) ∈ w'.repo.snapshots ∧
    ∃ ops lines d', restore C src' cut look dangling args sn = .ok (ops, lines) ∧
      calls C.hash src' cenv env ops d = (d', none) ∧ d'.elsewhere = d.elsewhere ∧
      ∀ p ∈ a.paths, ∀ q, ∃ e, Kept a.filter p q (view (look₀ p) q) e ∧
        After args (d.fs (dest args sn p ++ q)) e (d'.fs (dest args sn p ++ q)) := by
  obtain ⟨g1, ⟨_, _, _, _, g2⟩, g3, g4⟩ := C20.snapshot_holds_partial w u hB hN hp sn hsn hf
  have hdry : a.dryRun = false := by
    obtain ⟨F, known, here, root, L, _, _, _, _, _, _, hpost⟩ := plan_ok hp
    rw [hsn] at hpost
    rcases post_cases hpost.symm with h1 | ⟨h1, _⟩
    · cases h1
    · exact h1
  have hL : Leftover C ids u := by
    cases hf with
    | mk s hs hj =>
      exact (C13.next_can_start w _ hB hN hdry hp (.after s plan.posts [] hs hj (List.append_nil _).symm)).2
  obtain ⟨k1, _, k3, k4⟩ := history_partial g4 hL g1 hist
  exact ⟨k3, C56.restored he k1.sound ho hB.chunker hg hB.sorted hpx hdt g2 ((k4 _).mp g3) hout hd hr h1 hw hdir⟩

/-- The same from a second repository, to which the snapshot was copied in the meantime. -/
theorem copied_round_trip_partial {idsB : Ids Id} {coresB : Nat} {envB : CacheEnv Id} {srcA srcB : Source Id}
    {copied : List (Snap Id)} {planB : Plan Id} (u v x y : World Id)
    (hB : BackupOk C cut ids w src snaps a)
    (hN : NoClash C cut ids cores w src snaps a plan)
    (hp : backupPlan C cut w src snaps a = .ok plan) (sn : Snapshot Id)
    (hsn : plan.post = .ok [.putSnap sn])
    (hf : Finished (C13.cfg ids cores a plan) w plan.main plan.posts u)
    (hist : Relation.ReflTransGen (Keeping C cut ids cores (ids.snapId sn) sn) u v)
    (hC : CopyOk C envB idsB v.repo x srcA srcB copied) (hin : (sn, ids.snapId sn) ∈ copied)
    (hNB : CopyNoClash C idsB coresB v.repo x srcA copied (fun _ => true) planB)
    (hpB : copyPlan C envB x srcA srcB copied (fun _ => true) false = .ok planB)
    (hfB : Finished (liveCfg idsB coresB planB.start) x planB.main planB.posts y)
    (histB : Relation.ReflTransGen (Keeping C cut idsB coresB (idsB.snapId sn) sn) y w')
    (hg : Given look₀ a) {src' : Source Id} (ho : Opens w'.repo src') (he : C33.EnvOk cenv)
    (hpx : args.permissions = true → AllPosix a.fs) (hdt : args.times = true → AllMeta Datable a.fs)
    (hout : args.output = some dst) {d : Disk Id} (hd : EmptyDir look dangling d.fs dst md)
    (hr : d.reader = ReaderState.new) (h1 : OneClash C w'.repo a.paths dst md) (hw : args.dryRun = false)
    (hdir : args.delete = true ∨ ∀ p, a.paths = [p] → ∃ m sub, look₀ p = some ((m, none), sub)) :
    (idsB.snapId sn, sn) ∈ w'.repo.snapshots ∧
    ∃ ops lines d', restore C src' cut look dangling args sn = .ok (ops, lines) ∧
      calls C.hash src' cenv env ops d = (d', none) ∧ d'.elsewhere = d.elsewhere ∧
      ∀ p ∈ a.paths, ∀ q, ∃ e, Kept a.filter p q (view (look₀ p) q) e ∧
        After args (d.fs (dest args sn p ++ q)) e (d'.fs (dest args sn p ++ q)) := by
  obtain ⟨g1, ⟨_, _, _, _, g2⟩, g3, g4⟩ := C20.snapshot_holds_partial w u hB hN hp sn hsn hf
  have hdry : a.dryRun = false := by
    obtain ⟨F, known, here, root, L, _, _, _, _, _, _, hpost⟩ := plan_ok hp
    rw [hsn] at hpost
    rcases post_cases hpost.symm with h1 | ⟨h1, _⟩
    · cases h1
    · exact h1
  have hL : Leftover C ids u := by
    cases hf with
    | mk s hs hj =>
      exact (C13.next_can_start w _ hB hN hdry hp (.after s plan.posts [] hs hj (List.append_nil _).symm)).2
  obtain ⟨k1, _, k3, k4⟩ := history_partial g4 hL g1 hist
  obtain ⟨m1, m3, m4⟩ := copied_partial x y hC hin hNB hpB hfB histB
  exact ⟨m3, C56.restored he m1.sound ho hB.chunker hg hB.sorted hpx hdt g2 ((m4 _).mp ((k4 _).mp g3)) hout hd hr h1 hw hdir⟩

/-! ## Cases -/

open Demo

/-- Of two snapshots one is forgotten; a prune is interrupted, and the next runs to its end. -/
example : ∃ w', Relation.ReflTransGen (Keeping codec Demo.cut pruneIds 4 (pruneIds.snapId snapA) snapA) (clean repoAB) w' ∧
    Healthy codec pruneIds repoAB ∧ Leftover codec pruneIds (clean repoAB) ∧
    (pruneIds.snapId snapA, snapA) ∈ repoAB.snapshots ∧ repoAB.snapshots.length = 2 ∧ w'.repo.snapshots.length = 1 ∧
    w' ≠ clean repoA := by
  obtain ⟨w', hf⟩ := C25.finishesA
  have hr : C27.Ran codec Demo.cut pruneIds 4 (clean repoA) w' :=
    .prune (by intro x hx; cases hx) pruneOkA.noEmpty C25.chainA env_ok C25.opensA C25.loadedA' C25.noClashA' C25.planA'_eq hf
  obtain ⟨h1, _, h3, _⟩ := C25.resumed_finished_partial (w := clean repoA) healthyA
    pruneOkA.leftover pruneOkA.noEmpty C25.chainA env_ok C25.opensA C25.loadedA' C25.noClashA' C25.planA'_eq hf
  have one : ∀ s', (pruneIds.snapId snapA, s') ∈ repoA.snapshots → s' = snapA := by
    intro s' h
    exact congrArg Prod.snd (List.mem_singleton.mp h)
  have hin : (pruneIds.snapId snapA, snapA) ∈ repoA.snapshots := List.mem_singleton.mpr rfl
  have hsub : repoA.snapshots.Sublist repoAB.snapshots := by decide +kernel
  refine ⟨w', .tail (.single ⟨.forget (w := clean repoAB) hsub, fun h => h.1 hin, one⟩)
    ⟨hr, fun h => h.1 (by rw [h1]; exact hin), by rw [h1]; exact one⟩, healthyAB, leftover_clean healthyAB,
    by decide +kernel, by decide +kernel, by rw [h1]; rfl, ?_⟩
  rintro rfl
  have := (C26.nothing_iff _ pruneOkA false).mpr h3
  rw [planA_eq] at this
  cases this

/-- A backup of a small tree, then forgetting nothing: with what `C56` asks of a restore. -/
example : ∃ u w', Finished (C13.cfg Demo.ids 4 args0 plan0) world0 plan0.main plan0.posts u ∧
    Relation.ReflTransGen (Keeping codec Demo.cut Demo.ids 4 (Demo.ids.snapId snap0) snap0) u w' ∧
    BackupOk codec Demo.cut Demo.ids world0 src0 [] args0 ∧
    NoClash codec Demo.cut Demo.ids 4 world0 src0 [] args0 plan0 ∧
    backupPlan codec Demo.cut world0 src0 [] args0 = .ok plan0 ∧ plan0.post = .ok [.putSnap snap0] ∧
    Given C56.look0 args0 ∧ EmptyDir C56.lookO (fun _ => false) C56.fsO [[], [111]] dirMd ∧
    OneClash codec w'.repo args0.paths [[], [111]] dirMd := by
  obtain ⟨t, ht, hj⟩ := C20.finishes world0 backupOk0 noClash0 rfl (Nat.le_refl 4) BMap.sorted_nil plan0_eq _ .refl
  have hf := Finished.mk (post := plan0.posts) t ht hj
  obtain ⟨h1, _, _, h4⟩ := C20.snapshot_holds_partial world0 _ backupOk0 noClash0 plan0_eq snap0 post0 hf
  refine ⟨_, _, hf, .single ⟨.forget (List.Sublist.refl _), fun h => h.1 h1, fun s' hs => ?_⟩, backupOk0, noClash0,
    plan0_eq, post0, C56.given0, C56.emptyO, fun p h => by cases h⟩
  exact Option.some.inj (((BMap.get?_eq_some_iff h4.snapshots_sorted).mpr hs).symm.trans
    ((BMap.get?_eq_some_iff h4.snapshots_sorted).mpr h1))

/-- Copying two snapshots whole into an empty repository. -/
def planW : Plan ObjectId := planOf
  (copyPlan codec Demo.env world0 (Check.opened repoAB) src0 (snapsOf repoAB) (fun _ => true) false)

def blobsW : List (Blob ObjectId) :=
  Check.blobs repoAB ++ copyTrees codec (Check.opened repoAB) (snapsOf repoAB) (fun _ => true)

theorem blobsW_hash : ∀ b ∈ blobsW, ∀ b' ∈ emptyBlob codec :: blobsW,
    codec.hash b.data = codec.hash b'.data → b.data = b'.data := by decide +kernel

theorem blobsW_kind : ∀ b ∈ blobsW, ∀ b' ∈ blobsW, b.data = b'.data → b.kind = b'.kind := by decide +kernel

theorem noClashW : CopyNoClash codec pruneIds 4 repoAB world0 (Check.opened repoAB) (snapsOf repoAB)
    (fun _ => true) planW where
  blobs := by
    have hm : ∀ b, (Stored world0 b ∨ Has codec repoAB b ∨
        b ∈ copyTrees codec (Check.opened repoAB) (snapsOf repoAB) (fun _ => true)) → b ∈ blobsW := by
      rintro b (⟨p, bs, (⟨⟨i, x, ⟨h, _⟩, _⟩, _⟩ | ⟨x, h, _⟩), _⟩ | h | h)
      · cases h
      · cases h
      · exact List.mem_append_left _ (Check.has_iff.mp h).2
      · exact List.mem_append_right _ h
    exact ⟨fun b b' h h' => blobsW_hash b (hm b h) b'
        (h'.elim (fun h => List.mem_cons_of_mem _ (hm b' h)) (fun e => e ▸ List.mem_cons_self)),
      fun b b' h h' => blobsW_kind b (hm b h) b' (hm b' h')⟩
  packs := Check.packsDiffer_sound (by decide +kernel)
  indexes := C30.index0 (by decide +kernel)
  snaps := C30.snapsDiffer_sound (by decide +kernel)

theorem planW_eq : copyPlan codec Demo.env world0 (Check.opened repoAB) src0 (snapsOf repoAB) (fun _ => true) false =
    .ok planW := planOf_eq (by decide +kernel)

/-- After which nothing is forgotten. -/
example : ∃ y w', CopyOk codec Demo.env pruneIds repoAB world0 (Check.opened repoAB) src0 (snapsOf repoAB) ∧
    (snapA, pruneIds.snapId snapA) ∈ snapsOf repoAB ∧
    Finished (liveCfg pruneIds 4 planW.start) world0 planW.main planW.posts y ∧
    Relation.ReflTransGen (Keeping codec Demo.cut pruneIds 4 (pruneIds.snapId snapA) snapA) y w' := by
  have hin : (snapA, pruneIds.snapId snapA) ∈ snapsOf repoAB := by decide +kernel
  have hC := C30.copyOk_of healthyAB
  obtain ⟨y, hf, h5, h6⟩ : ∃ y, Finished (liveCfg pruneIds 4 planW.start) world0 planW.main planW.posts y ∧
      (pruneIds.snapId snapA, snapA) ∈ y.repo.snapshots ∧ Healthy codec pruneIds y.repo := by
    obtain ⟨t, ht, hj⟩ := C30.finishes _ _ hC noClashW planW_eq (Nat.le_refl 4) BMap.sorted_nil _ .refl
    have hf := Finished.mk (post := planW.posts) t ht hj
    obtain ⟨_, _, _, _, _, h4⟩ := C30.copied_partial _ _ _ hC noClashW planW_eq hf _ hin
    exact ⟨_, hf, (h4 (fun _ => rfl)).1, (C30.always_healthy_partial _ _ _ hC noClashW planW_eq
      (.after t planW.posts [] ht hj (List.append_nil _).symm)).1⟩
  refine ⟨y, y, hC, hin, hf,
    .single ⟨.forget (w := y) (List.Sublist.refl _), fun h => h.1 h5, fun s' hs => ?_⟩⟩
  exact Option.some.inj (((BMap.get?_eq_some_iff h6.snapshots_sorted).mpr hs).symm.trans
    ((BMap.get?_eq_some_iff h6.snapshots_sorted).mpr h5))

end Backpak.C97
