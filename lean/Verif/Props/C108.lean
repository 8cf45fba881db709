import Verif.Lemmas.Path
import Verif.Props.C14
import Verif.Props.C18
import Verif.Props.C20
import Verif.Props.C21
import Verif.Props.C69
import Verif.Props.C97
import Verif.Props.C104

/-!
# C108 - A backup succeeds unless something is amiss

The full claim is: a backup of paths that can be read, with different names, into a repository in good order, whatever an
interrupted backup has left, succeeds.

Missing: with three cores or fewer it can hang (`C16.few_cores_hang`); and one that resumes and makes no snapshot panics
(`C69.unchanged_resumed_panics`). `starts` needs neither exception; `succeeds_partial` does.
-/

namespace Backpak.C108

open Spec Pipeline

variable {Id : Type} [LinearOrder Id] {C : Codec Id} {cut : Bytes → Nat} {ids : Ids Id} {cores : Nat}
  {w : World Id} {src : Source Id} {snaps : List (Snap Id)} {a : BackupArgs}

/-- What is backed up is as a system reports files: each entry's metadata says what it is, files have sizes, and no two of the
paths have the same last name. -/
structure Reported (a : BackupArgs) : Prop where
  kinds : (keep a.filter a.pathOf a.fs).KindsOk
  sized : Sized (keep a.filter a.pathOf a.fs)
  names : (keep a.filter a.pathOf a.fs).names.Nodup

/-- The metadata in the parent snapshot say what the entries are. -/
def ParentKinds (C : Codec Id) (R : Repo Id) (snaps : List (Snap Id)) (a : BackupArgs) : Prop :=
  ∀ p d, parentSnapshot a.paths snaps = some p → Holds C R p.tree d → d.KindsOk

theorem sorted_names {d : Dir Bytes} (h : d.Sorted) : d.names.Nodup := by
  induction d with
  | nil => exact List.nodup_nil
  | leaf n md l r ih => exact List.nodup_cons.mpr ⟨fun hm => lt_irrefl n (h.1 n hm), ih h.2⟩
  | dir n md s r _ ih => exact List.nodup_cons.mpr ⟨fun hm => lt_irrefl n (h.1 n hm), ih h.2.2⟩

theorem sorted_subs {d : Dir Bytes} (h : d.Sorted) : SubsSorted d := by
  induction d with
  | nil => trivial
  | leaf n md l r ih => exact ih h.2
  | dir n md s r _ ih => exact ⟨h.2.1, ih h.2.2⟩

omit [LinearOrder Id] in
theorem finalize_total (t : Tree Id) (l : List (Blob Id)) : ∃ r, (noteVisitor C cut).finalize t l = .ok r := by
  simp only [noteVisitor, sendVisitor]
  split <;> exact ⟨_, rfl⟩

/-- A walk over what is as reported does not fail. -/
theorem walk_total {filter : Path → Bool} {F : Forest Id} (hF : NodesOk F) (d : Dir Bytes) :
    ∀ (pathOf : Name → Path) (pt : Option (Tree Id)) (t : Tree Id) (l : List (Blob Id)),
    C21.PrevOk pt → (keep filter pathOf d).KindsOk → Sized (keep filter pathOf d) → SubsSorted d →
    (keep filter pathOf d).names.Nodup → (∀ n ∈ (keep filter pathOf d).names, n ∉ BMap.keys t) →
    ∃ r, walkFs (noteVisitor C cut) filter F pathOf pt d t l = .ok r := by
  have next : ∀ {n : Name} {t : Tree Id} {l : List Name} (x : Node Id), (n :: l).Nodup →
      (∀ m ∈ n :: l, m ∉ BMap.keys t) → ∀ m ∈ l, m ∉ BMap.keys (BMap.insert n x t) := by
    intro n t l x h1 h2 m hm hmem
    rcases BMap.keys_insert_mem.mp hmem with rfl | h
    · exact (List.nodup_cons.mp h1).1 hm
    · exact h2 m (List.mem_cons_of_mem _ hm) h
  have new : ∀ {n : Name} {t : Tree Id}, n ∉ BMap.keys t → BMap.get? t n = none := by
    intro n t h
    cases hg : BMap.get? t n with
    | none => rfl
    | some x => exact absurd (BMap.mem_keys_iff.mpr ⟨x, hg⟩) h
  induction d with
  | nil => intro _ _ t l _ _ _ _ _ _; exact ⟨_, rfl⟩
  | leaf n md lf rest ih =>
    intro pathOf pt t l hpt hk hsz hsub hnd hnt
    unfold walkFs
    by_cases hfil : filter (pathOf n) = false
    · rw [if_pos hfil]
      rw [Spec.keep, if_pos (.inl hfil)] at hk hsz hnd hnt
      exact ih _ _ _ _ hpt hk hsz hsub hnd hnt
    · rw [if_neg hfil]
      simp only
      cases lf with
      | other =>
        rw [Spec.keep, if_pos (.inr rfl)] at hk hsz hnd hnt
        exact ih _ _ _ _ hpt hk hsz hsub hnd hnt
      | link tgt =>
        rw [Spec.keep, if_neg (by simp [hfil])] at hk hsz hnd hnt
        simp only
        rw [C21.link_ok (new (hnt n List.mem_cons_self))]
        exact ih _ _ _ _ hpt hk.2 hsz.2 hsub (List.nodup_cons.mp hnd).2 (next _ hnd hnt)
      | file x =>
        rw [Spec.keep, if_neg (by simp [hfil])] at hk hsz hnd hnt
        simp only
        obtain ⟨ch, hch⟩ := C21.fileChanged_ok hk.1 (prev := pt.bind fun t => BMap.get? t n) (fun y hy => hpt n y hy)
        rw [hch]
        cases ch with
        | true =>
          simp only [if_true]
          rw [C21.changed_ok (new (hnt n List.mem_cons_self))]
          exact ih _ _ _ _ hpt hk.2 hsz.2 hsub (List.nodup_cons.mp hnd).2 (next _ hnd hnt)
        | false =>
          obtain ⟨cs, m0, hp', hun⟩ := fileChanged_false hch
          simp only [hp', noteVisitor, sendVisitor, Bool.false_eq_true, if_false]
          rw [if_neg (hsz.1 x rfl), C21.addNode_new (new (hnt n List.mem_cons_self))]
          exact ih _ _ _ _ hpt hk.2 hsz.2 hsub (List.nodup_cons.mp hnd).2 (next _ hnd hnt)
  | dir n md sub rest ihs ih =>
    intro pathOf pt t l hpt hk hsz hsub hnd hnt
    unfold walkFs
    by_cases hfil : filter (pathOf n) = false
    · rw [if_pos hfil]
      rw [Spec.keep, if_pos hfil] at hk hsz hnd hnt
      exact ih _ _ _ _ hpt hk hsz hsub.2 hnd hnt
    · rw [if_neg hfil]
      rw [Spec.keep, if_neg hfil] at hk hsz hnd hnt
      simp only [prevSub_eq, note_init]
      obtain ⟨⟨j, s1⟩, h1⟩ := ihs (fun m => pathOf n ++ [m]) (prevSub F pt n) [] l (C21.prevOk_sub hF pt n) hk.2.1 hsz.1
        (sorted_subs hsub.1) ((sorted_names hsub.1).sublist (keep_names _ _ _)) (fun _ _ h => by cases h)
      rw [h1]
      simp only
      obtain ⟨⟨id, s2⟩, h2⟩ := finalize_total (C := C) (cut := cut) j s1
      rw [h2]
      simp only
      rw [C21.dir_ok (new (hnt n List.mem_cons_self))]
      exact ih _ _ _ _ hpt hk.2.2 hsz.2 hsub.2 (List.nodup_cons.mp hnd).2 (next _ hnd hnt)

/-- A walk that did not fail went over different names. -/
theorem walk_needs {filter : Path → Bool} {F : Forest Id} (d : Dir Bytes) :
    ∀ (pathOf : Name → Path) (pt : Option (Tree Id)) (t : Tree Id) (l : List (Blob Id)) (r : Tree Id × List (Blob Id)),
    walkFs (noteVisitor C cut) filter F pathOf pt d t l = .ok r →
    (keep filter pathOf d).names.Nodup ∧ ∀ n ∈ (keep filter pathOf d).names, n ∉ BMap.keys t := by
  have step : ∀ {n : Name} {t : Tree Id} {l : List Name} (x : Node Id), BMap.get? t n = none →
      (l.Nodup ∧ ∀ m ∈ l, m ∉ BMap.keys (BMap.insert n x t)) → (n :: l).Nodup ∧ ∀ m ∈ n :: l, m ∉ BMap.keys t := by
    intro n t l x h0 h
    refine ⟨List.nodup_cons.mpr ⟨fun hm => h.2 n hm (BMap.keys_insert_mem.mpr (.inl rfl)), h.1⟩, fun m hm hk => ?_⟩
    rcases List.mem_cons.mp hm with rfl | hm
    · obtain ⟨y, hy⟩ := BMap.mem_keys_iff.mp hk
      rw [h0] at hy
      cases hy
    · exact h.2 m hm (BMap.keys_insert_mem.mpr (.inr hk))
  induction d with
  | nil => intro _ _ t l r _; exact ⟨List.nodup_nil, fun n h => by cases h⟩
  | leaf n md lf rest ih =>
    intro pathOf pt t l r h
    unfold walkFs at h
    by_cases hfil : filter (pathOf n) = false
    · rw [if_pos hfil] at h
      rw [Spec.keep, if_pos (.inl hfil)]
      exact ih _ _ _ _ _ h
    · rw [if_neg hfil] at h
      simp only at h
      cases lf with
      | other =>
        rw [Spec.keep, if_pos (.inr rfl)]
        exact ih _ _ _ _ _ h
      | link tgt =>
        rw [Spec.keep, if_neg (by simp [hfil])]
        simp only at h
        split at h
        · cases h
        · rename_i i' s' hv
          obtain ⟨h0, rfl, rfl⟩ := visit_link hv
          exact step _ h0 (ih _ _ _ _ _ h)
      | file x =>
        rw [Spec.keep, if_neg (by simp [hfil])]
        simp only at h
        split at h
        · cases h
        · rename_i ch hch
          split at h
          · cases h
          · rename_i i' s' hv
            cases ch with
            | true =>
              obtain ⟨h0, rfl, rfl⟩ := visit_changed hv
              exact step _ h0 (ih _ _ _ _ _ h)
            | false =>
              obtain ⟨h0, p, _, rfl, rfl⟩ := visit_unchanged hv
              exact step _ h0 (ih _ _ _ _ _ h)
  | dir n md sub rest _ ih =>
    intro pathOf pt t l r h
    unfold walkFs at h
    by_cases hfil : filter (pathOf n) = false
    · rw [if_pos hfil] at h
      rw [Spec.keep, if_pos hfil]
      exact ih _ _ _ _ _ h
    · rw [if_neg hfil] at h
      rw [Spec.keep, if_neg hfil]
      simp only at h
      split at h
      · cases h
      · split at h
        · cases h
        · split at h
          · cases h
          · rename_i i' s' hv
            obtain ⟨h0, rfl, rfl⟩ := visit_dir hv
            exact step _ h0 (ih _ _ _ _ _ h)

/-! ## The properties -/

/-- A backup gets as far as starting its threads, and has walked everything. -/
theorem starts (hB : BackupOk C cut ids w src snaps a) (hr : Reported a) (hk : ParentKinds C w.repo snaps a) :
    ∃ plan, backupPlan C cut w src snaps a = .ok plan := by
  have hS := hB.healthy.sound
  obtain ⟨F, h1, hF⟩ : ∃ F, parentForest C src (parentSnapshot a.paths snaps) = .ok F ∧ NodesOk F := by
    cases hp : parentSnapshot a.paths snaps with
    | none => exact ⟨[], rfl, fun id t h => by cases h⟩
    | some p =>
      obtain ⟨d, hd⟩ := hB.runs.readable p hp
      obtain ⟨F, cache, h1, h2, _⟩ := load_from hS hB.opens hd (newTreeCache_ok (C := C))
      refine ⟨F, ?_, h2.nodesOk hS hd (hk p d hp hd)⟩
      unfold parentForest
      simp only
      rw [h1]
      rfl
  have hblob : (blobsListed src.index.packs).Nodup := (C18.refused_iff src.index).1.mp ⟨_, hB.opens.blobMap⟩
  obtain ⟨known, h5⟩ := (C18.refused_iff src.index).2.1.mpr hblob
  obtain ⟨r, h6⟩ := (C14.accepted_iff w).mpr (by
    intro x hx p hp
    obtain ⟨m, hm⟩ := BMap.mem_keys_iff.mp hp
    obtain ⟨bs, hb, _⟩ := hB.leftover.there x p m hx (BMap.mem_of_get? hm)
    exact hb.imp BMap.mem_keys_of_mem BMap.mem_keys_of_mem)
  obtain ⟨⟨start, here⟩, h7⟩ : ∃ q, resumeFrom w = .ok q := by
    unfold resumeFrom
    rw [h6]
    exact ⟨_, rfl⟩
  have hpt : C21.PrevOk (((parentSnapshot a.paths snaps).map (·.tree)).bind (fun id => F.get? id)) := by
    intro n x hx
    cases hg : ((parentSnapshot a.paths snaps).map (·.tree)).bind (fun id => F.get? id) with
    | none => rw [hg] at hx; simp [prevNode] at hx
    | some t =>
      rw [hg] at hx
      obtain ⟨id, _, h⟩ := Option.bind_eq_some_iff.mp hg
      exact hF id t h n x hx
  obtain ⟨⟨t, l⟩, h8⟩ := walk_total (C := C) (cut := cut) hF a.fs a.pathOf _ [] [] hpt hr.kinds hr.sized hB.sorted hr.names
    (fun _ _ h => by cases h)
  obtain ⟨⟨root, L⟩, h9⟩ := finalize_total (C := C) (cut := cut) t l
  have h10 : backupBlobs C cut a.filter F a.pathOf ((parentSnapshot a.paths snaps).map (·.tree)) a.fs = .ok (root, L) := by
    unfold backupBlobs walkTop
    rw [note_init, h8]
    exact h9
  unfold backupPlan
  simp only [h1, h5, h7, backupTree_eq, h10]
  exact ⟨_, rfl⟩

/-- With four cores or more its threads can always finish, wherever they have got to, and it does not fail after that, unless it
resumed another. -/
theorem succeeds_partial (hB : BackupOk C cut ids w src snaps a) (hr : Reported a) (hk : ParentKinds C w.repo snaps a)
    (hw : BMap.Sorted w.cwd.packs) (hd : a.dryRun = false) (hcores : 4 ≤ cores)
    (hN : ∀ plan, backupPlan C cut w src snaps a = .ok plan → NoClash C cut ids cores w src snaps a plan)
    (hx : ∀ x, w.cwd.wip = some x → x.isEmpty = true) :
    ∃ plan, backupPlan C cut w src snaps a = .ok plan ∧ (∃ l, plan.post = .ok l) ∧
      ∀ s, Reachable (C13.cfg ids cores a plan) w plan.main s →
        ∃ t, Relation.ReflTransGen (Step (C13.cfg ids cores a plan)) s t ∧ t.joined = true := by
  obtain ⟨plan, hp⟩ := starts hB hr hk
  refine ⟨plan, hp, ?_, fun s hs => C20.finishes w hB (hN plan hp) hd hcores hw hp s hs⟩
  cases he : plan.post with
  | ok l => exact ⟨l, rfl⟩
  | error e =>
    obtain ⟨_, x, h1, h2⟩ := C69.panics_only_if_resumed w hB (hN plan hp).blobs hp e he
    rw [hx x h1] at h2
    cases h2

/-- So does a dry run, whatever there is to resume. -/
theorem dry_succeeds_partial (hB : BackupOk C cut ids w src snaps a) (hr : Reported a) (hk : ParentKinds C w.repo snaps a)
    (hw : BMap.Sorted w.cwd.packs) (hd : a.dryRun = true) (hcores : 4 ≤ cores)
    (hU : Unmixed C (fun b => Stored w b ∨ b ∈ offered C cut src snaps a))
    (hN : ∀ plan, backupPlan C cut w src snaps a = .ok plan → PacksDiffer ids w plan.main) :
    ∃ plan, backupPlan C cut w src snaps a = .ok plan ∧ plan.post = .ok [] ∧
      ∀ s, Reachable (C13.cfg ids cores a plan) w plan.main s →
        ∃ t, Relation.ReflTransGen (Step (C13.cfg ids cores a plan)) s t ∧ t.joined = true := by
  obtain ⟨plan, hp⟩ := starts hB hr hk
  have hinj := hN plan hp
  obtain ⟨F, known, here, root, L, hF, hkn, hres, hb, hoff, hm, hpost⟩ := plan_ok hp
  refine ⟨plan, hp, ?_, fun s h => ?_⟩
  · cases he : plan.post with
    | ok l =>
      rw [he] at hpost
      rcases post_cases hpost.symm with rfl | ⟨h1, _⟩
      · rfl
      · rw [hd] at h1
        cases h1
    | error e =>
      have := (C69.panics_only_if_resumed w hB hU hp e he).1
      rw [hd] at this
      cases this
  · rw [hoff] at hU
    obtain ⟨hfresh, _⟩ := offer_fresh hB.leftover
      (packed_iff hB.healthy.sound hB.leftover hB.opens hkn hres) (offered_made hB.runs hF hb) hU
    generalize (L.foldl offer ⟨BMap.keys known ++ listedIds plan.start, []⟩).sent = ss at hm hfresh
    have hmain : plan.main = mainOf [] ss := by rw [hm, hd]; rfl
    have hcfg : C13.cfg ids cores a plan = ⟨ids, false, cores, plan.start, fun _ => True⟩ := by simp [C13.cfg, hd]
    rw [hmain] at h hinj
    rw [hcfg] at h ⊢
    have hinv : Involved w (mainOf here ss) = Involved w (mainOf [] ss) := by
      funext x
      simp only [Involved, FormedBy, sends_mainOf]
    have hinj' : PacksDiffer ids w (mainOf here ss) := by
      unfold PacksDiffer
      rw [hinv]
      exact hinj
    have hg := add_given (cores := cores) hB.healthy hB.leftover hw hres hfresh hinj'
    rw [hinv] at hg
    have hg' : C16.Given ⟨ids, false, cores, plan.start, Involved w (mainOf [] ss)⟩ w [] ss :=
      ⟨⟨hg.world.cwd, hg.world.repo, hg.world.rsort, hg.world.isort⟩, .nil, by simp, hg.sorted, hg.nonempty, hg.nodup,
        hg.start, fun bs hbs => .inr (.inr hbs), hg.inj⟩
    have h' : Reachable ⟨ids, false, cores, plan.start, Involved w (mainOf [] ss)⟩ w (mainOf [] ss) s :=
      reachable_allowed (c := ⟨ids, false, cores, plan.start, fun _ => True⟩)
        (c' := ⟨ids, false, cores, plan.start, Involved w (mainOf [] ss)⟩) rfl rfl rfl rfl (fun cur hc => .inr (.inr hc)) h
    obtain ⟨⟨t, ht, hj⟩, _⟩ := C16.finishes_partial _ w [] ss s hcores hg' h'
    refine ⟨t, ?_, hj⟩
    clear hj
    induction ht with
    | refl => exact .refl
    | tail _ hs ih => exact ih.tail (step_allowed hs)

/-- If two of what is backed up have one name, the backup fails: `Reported.names` is needed. -/
theorem same_name_fails (h : ¬ (keep a.filter a.pathOf a.fs).names.Nodup) (plan : Plan Id) :
    backupPlan C cut w src snaps a ≠ .ok plan := by
  intro hp
  obtain ⟨F, known, here, root, L, _, _, _, hb, _⟩ := plan_ok hp
  unfold backupBlobs walkTop at hb
  split at hb
  · cases hb
  · rename_i t' l' hw
    exact h (walk_needs _ _ _ _ _ _ hw).1

/-- The metadata in every snapshot say what the entries are. -/
def AllKinds (C : Codec Id) (R : Repo Id) : Prop :=
  ∀ i s d, (i, s) ∈ R.snapshots → Holds C R s.tree d → d.KindsOk

theorem parent_kinds (hB : BackupOk C cut ids w src snaps a) (h : AllKinds C w.repo) : ParentKinds C w.repo snaps a := by
  intro p d hp hd
  obtain ⟨i, hi⟩ := parent_mem hp
  exact h i p d (hB.loaded _ hi) hd

/-- A new repository has no snapshots. -/
theorem kinds_new (C : Codec Id) (R : Repo Id) (h : R.snapshots = []) : AllKinds C R := by
  intro i s d hi
  rw [h] at hi
  cases hi

/-- What `starts` asks of the parent, a backup that finished leaves true of every snapshot: so one backup after another
starts. -/
theorem kinds_stay {plan : Plan Id} {w' : World Id} (hB : BackupOk C cut ids w src snaps a) (hr : Reported a)
    (hk : AllKinds C w.repo) (hN : NoClash C cut ids cores w src snaps a plan) (hd : a.dryRun = false)
    (hp : backupPlan C cut w src snaps a = .ok plan)
    (h : Finished (C13.cfg ids cores a plan) w plan.main plan.posts w') : AllKinds C w'.repo := by
  have hi : Instant (C13.cfg ids cores a plan) w plan.main plan.posts w' := by
    cases h with
    | mk s hs hj => exact .after s plan.posts [] hs hj (by simp)
  have hh := C13.always_readable_partial (cores := cores) w w' hB (fun _ => hN) hp hi
  have hm := (C97.backup_adds hB hN hd hp hi).1
  have old : ∀ i s d, (i, s) ∈ w.repo.snapshots → Holds C w'.repo s.tree d → d.KindsOk := by
    intro i s d h1 h2
    obtain ⟨d0, h3⟩ := hB.healthy.readable i s h1
    rw [← holds_one hh.sound (has_mono_holds hm h3) h2]
    exact hk i s d0 h1 h3
  intro i s d h1 h2
  rcases C104.afterwards w w' hB hN hd hp h with ⟨sn, h3, h4⟩ | ⟨_, h4⟩
  · rw [h4] at h1
    rcases BMap.mem_insert_of h1 with ⟨_, rfl⟩ | h1
    · rw [← holds_one hh.sound (C20.snapshot_holds_partial w w' hB hN hp _ h3 h).2.2.1 h2]
      exact C21.kinds_putAll hr.kinds _ trivial
    · exact old i s d h1 h2
  · rw [h4] at h1
    exact old i s d h1 h2

/-! ## Not vacuous -/

/-- A first backup. -/
theorem reported0 : Reported Demo.args0 := by
  refine ⟨?_, ?_, by decide +kernel⟩
  · refine ⟨by decide +kernel, by decide +kernel, by decide +kernel, ⟨by decide +kernel, by decide +kernel, trivial, trivial⟩, trivial⟩
  · refine ⟨fun _ _ => by decide +kernel, fun _ _ => by decide +kernel, ⟨fun _ _ => by decide +kernel, trivial, trivial⟩, trivial⟩

example : Reported Demo.args0 ∧ ParentKinds Demo.codec Demo.world0.repo [] Demo.args0 ∧
    BMap.Sorted Demo.world0.cwd.packs ∧ Demo.args0.dryRun = false ∧ Demo.world0.cwd.wip = none ∧
    backupPlan Demo.codec Demo.cut Demo.world0 Demo.src0 [] Demo.args0 = .ok Demo.plan0 := by
  exact ⟨reported0, fun p d h => (by cases h), BMap.sorted_nil, rfl, rfl, Demo.plan0_eq⟩

/-- It starts, finishes, and leaves a snapshot that says what its entries are. -/
example : ∃ w', Finished (C13.cfg Demo.ids 4 Demo.args0 Demo.plan0) Demo.world0 Demo.plan0.main Demo.plan0.posts w' ∧
    (Demo.ids.snapId Demo.snap0, Demo.snap0) ∈ w'.repo.snapshots ∧ AllKinds Demo.codec w'.repo := by
  obtain ⟨t, ht, hj⟩ := C20.finishes Demo.world0 Demo.backupOk0 Demo.noClash0 rfl (Nat.le_refl 4)
    BMap.sorted_nil Demo.plan0_eq _ .refl
  have hf := Finished.mk (post := Demo.plan0.posts) t ht hj
  exact ⟨_, hf, (C20.snapshot_holds_partial Demo.world0 _ Demo.backupOk0 Demo.noClash0 Demo.plan0_eq Demo.snap0 Demo.post0 hf).1,
    kinds_stay Demo.backupOk0 reported0 (kinds_new _ _ rfl) Demo.noClash0 rfl Demo.plan0_eq hf⟩

/-- A backup after it, with a parent. -/
example : Reported C69.argsA ∧ ParentKinds Demo.codec Demo.repoA (Demo.snapsOf Demo.repoA) C69.argsA ∧
    parentSnapshot C69.argsA.paths (Demo.snapsOf Demo.repoA) = some Demo.snapA := by
  have hk : (keep C69.argsA.filter C69.argsA.pathOf C69.argsA.fs).KindsOk := ⟨by decide +kernel, trivial⟩
  refine ⟨⟨hk, ⟨fun _ _ => by decide +kernel, trivial⟩, by decide +kernel⟩, fun p d h hd => ?_, C69.parentA⟩
  have hp : Demo.snapA = p := Option.some.inj (C69.parentA.symm.trans h)
  rw [← hp] at hd
  rw [← holds_one Demo.healthyA.sound C69.holdsA hd]
  exact C21.kinds_putAll hk _ trivial

/-- Two of one name. -/
example : ¬ (keep (fun _ => true) (fun n => [n]) (.leaf [97] (Demo.fileMd 1 1) (.file [1]) (.leaf [97] (Demo.fileMd 2 2) (.file [2]) .nil) : Dir Bytes)).names.Nodup := by
  decide +kernel

/-- A dry run of the first backup. -/
example : let a := { Demo.args0 with dryRun := true }
    BackupOk Demo.codec Demo.cut Demo.ids Demo.world0 Demo.src0 [] a ∧ Reported a ∧
    Unmixed Demo.codec (fun b => Stored Demo.world0 b ∨ b ∈ offered Demo.codec Demo.cut Demo.src0 [] a) ∧
    ∀ plan, backupPlan Demo.codec Demo.cut Demo.world0 Demo.src0 [] a = .ok plan → PacksDiffer Demo.ids Demo.world0 plan.main := by
  refine ⟨⟨Demo.backupOk0.chunker, Demo.backupOk0.healthy, Demo.backupOk0.leftover, Demo.backupOk0.opens, Demo.backupOk0.loaded,
    Demo.backupOk0.fits, Demo.backupOk0.few, Demo.backupOk0.sorted, Demo.backupOk0.faithful⟩,
    ⟨reported0.kinds, reported0.sized, reported0.names⟩, Demo.noClash0.blobs, fun plan hp => ?_⟩
  have h : ((Demo.planOf (backupPlan Demo.codec Demo.cut Demo.world0 Demo.src0 [] { Demo.args0 with dryRun := true })).main) =
      Demo.plan0.main := by decide +kernel
  rw [hp] at h
  rw [show plan.main = Demo.plan0.main from h]
  exact Demo.noClash0.packs

end Backpak.C108
