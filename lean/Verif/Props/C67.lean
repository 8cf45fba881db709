import Verif.Lemmas.Rebuilding
import Verif.Props.C66

/-!
# C67 - A rebuild-index beside backups

"Any concurrent writers (writing a backup at the same time) will upload their own index only after all packs are
uploaded, making sure indexes never refer to missing packs. (I hope...)" (`src/ui/rebuild_index.rs:89-91`). It is so:
the indexes are listed before the packs are, so that every pack of an index that is removed has been seen.
-/

namespace Backpak.C67

open Spec Pipeline Rebuilding
open C65 (Apart Known)
open C66 (IsBackup)
open Beside (Orderly own gives jobs jobs_of NewApart)

variable {ι Id : Type} [DecidableEq ι] [LinearOrder Id]

/-- The processes that may start: backups whose objects are in these sets, and that do not store anew an index that
was superseded before any of them began (see `C27`). -/
structure May (C : Codec Id) (cut : Bytes → Nat) (ids : Ids Id) (cores : Nat) (U : Pack Id → Prop)
    (X : Index Id → Prop) (S : Snapshot Id → Prop) (R0 : Repo Id) (j : Job Id) : Prop where
  kind : ∃ a plan, IsBackup C cut ids cores j a plan
  safe : ∀ x, Writes j.c (sends j.main) x → ¬ Superseded R0.indexes (ids.indexId x)
  packs : ∀ bs, (∃ p, (p, bs) ∈ j.w.cwd.packs) ∨ FormedBy j.main bs → U bs
  indexes : ∀ x, Writes j.c (sends j.main) x → X x
  snaps : ∀ s, Post.putSnap s ∈ j.posts → S s

section

variable {C : Codec Id} {cut : Bytes → Nat} {ids : Ids Id} {cores : Nat}
  {U : Pack Id → Prop} {X : Index Id → Prop} {S : Snapshot Id → Prop} {R0 : Repo Id} {j : Job Id}
  {a : BackupArgs} {plan : Plan Id}

theorem orderly {R : Repo Id} (hH : Healthy C ids R) : Orderly C ids R :=
  ⟨hH.packs_sorted, hH.indexes_sorted, BMap.sorted_nil, hH.pack_names, hH.index_names,
    hH.index_packs, hH.present, hH.distinct, hH.once, hH.one_kind, hH.hashes, hH.trees, hH.full,
    fun i s hi => (by cases hi)⟩

theorem here_listed {w : World Id} {start : Index Id} {here : List Id} (h : resumeFrom w = .ok (start, here)) :
    ∀ p ∈ here, p ∈ BMap.keys start.packs := by
  unfold resumeFrom at h
  cases hf : findResumable w with
  | error e => rw [hf] at h; cases h
  | ok r =>
    rw [hf] at h
    unfold findResumable at hf
    cases hw : w.cwd.wip with
    | none =>
      simp only [hw] at hf
      cases hf
      cases h
      exact fun p hp => by cases hp
    | some x =>
      simp only [hw] at hf
      split at hf
      · cases hf
        cases h
        intro p hp
        exact BMap.get?_isSome_iff.mp (List.mem_filter.mp hp).2
      · cases hf

theorem ups (hb : IsBackup C cut ids cores j a plan) (ho : Orderly C ids j.w.repo) :
    ∀ p, Op.up p ∈ j.main → p ∈ BMap.keys j.c.start.packs := by
  obtain ⟨src, snaps, _, _, _, hp⟩ := hb.ok ho
  obtain ⟨hc, hm, _⟩ := hb.job
  obtain ⟨F, known, here, root, L, _, _, hr, _, _, hm', _⟩ := plan_ok hp
  intro p hmem
  rw [hm, hm', hb.live] at hmem
  have hstart : j.c.start = plan.start := by rw [hc]; rfl
  rw [hstart]
  rcases List.mem_append.mp hmem with h | h
  · obtain ⟨q, hq, h1⟩ := List.mem_map.mp (show Op.up p ∈ here.map Op.up from h)
    cases h1
    exact here_listed hr p hq
  · obtain ⟨q, _, h1⟩ := List.mem_map.mp h
    cases h1

theorem may_brings (j : Job Id) (hm : May C cut ids cores U X S R0 j) (hH : Healthy C ids j.w.repo)
    (hK : Known ids U X S j.w.repo) : Brings C ids cores U X S R0 j := by
  obtain ⟨a, plan, hb⟩ := hm.kind
  have hB := hb.backs (orderly hH)
  refine ⟨hB.adds hm.packs hm.indexes hm.snaps hm.safe hK, ups hb (orderly hH), ?_⟩
  intro s hs hj R' hR' sn hsn
  obtain ⟨_, f2, f3⟩ := grow hB.run hB.sound (c := own ids cores j) (covers_plain hB.sup) hB.ledger hB.fresh hB.idx hs
  refine ⟨_, hB.holds R' (fun b h1 _ => hR' b (f2 b h1)) (fun b h1 => hR' b (f3 hj b h1)) sn ?_⟩
  rw [hb.job.2.2] at hsn
  unfold Plan.posts at hsn
  rcases hB.posts with h1 | ⟨sn', h1⟩
  · rw [hb.job.2.2] at h1
    unfold Plan.posts at h1
    rw [h1] at hsn
    cases hsn
  · rw [hb.job.2.2] at h1
    unfold Plan.posts at h1
    cases hp : plan.post with
    | ok l =>
      simp only [hp] at h1 hsn
      rw [h1, List.mem_singleton] at hsn
      cases hsn
      rw [h1]
    | error e => simp only [hp] at hsn; cases hsn

variable {m : Mixed ι Id}

/-- Any number of backups and a rebuild-index take their steps in any order, or stop for good. As long as every pack
there was at first was listed, and no two backups add the same new blob, the repository is in good order at every
instant: every live index lists packs that are there, each blob in one of them, and every snapshot can be read.
What was there at first is there, every snapshot holding what it held. -/
theorem always_healthy (hU : Apart ids U X S) (hH : Healthy C ids R0) (hK : Known ids U X S R0) (hT : Tidy R0)
    (h : Mixed.Reachable ids (May C cut ids cores U X S R0) R0 m) (ht : Together ids X R0 m) :
    Healthy C ids m.shared.repo ∧ (∀ b, Has C R0 b → Has C m.shared.repo b) ∧
    ∀ i sn d, (i, sn) ∈ R0.snapshots → Holds C R0 sn.tree d →
      (i, sn) ∈ m.shared.repo.snapshots ∧ Holds C m.shared.repo sn.tree d := by
  obtain ⟨alone, hi⟩ := inv hU hH hK hT may_brings h ht
  have hm : ∀ b, Has C R0 b → Has C m.shared.repo b := fun b hb => has_mono hi.core.base hi.core.listed0 hb
  exact ⟨hi.core.healthy, hm, fun i sn d h1 h2 => ⟨hi.core.snaps0 _ h1, has_mono_holds hm h2⟩⟩

/-- What each process found when it began. -/
theorem started (hU : Apart ids U X S) (hH : Healthy C ids R0) (hK : Known ids U X S R0) (hT : Tidy R0)
    (h : Mixed.Reachable ids (May C cut ids cores U X S R0) R0 m) (ht : Together ids X R0 m) :
    ∀ k p, m.shared.proc k = some p → Healthy C ids p.job.w.repo := by
  induction h with
  | refl => intro k p hk; cases hk
  | @tail m1 m2 hr hs ih =>
    have ht1 := ht.back hs
    have hc := (always_healthy hU hH hK hT hr ht1).1
    have ih := ih ht1
    cases hs with
    | other m m' r hs =>
      intro k p hk
      cases hs with
      | start i j h1 h2 h3 =>
        rcases C65.upd_some hk with ⟨rfl, rfl⟩ | ⟨hne, hk⟩
        · dsimp only
          rw [h2]
          exact hc
        · exact ih k p hk
      | run i q t h1 h2 h3 =>
        rcases C65.upd_some hk with ⟨rfl, rfl⟩ | ⟨hne, hk⟩
        · exact ih k q h1
        · exact ih k p hk
      | post i q o rest h1 h2 h3 =>
        rcases C65.upd_some hk with ⟨rfl, rfl⟩ | ⟨hne, hk⟩
        · exact ih k q h1
        · exact ih k p hk
    | indexes m cwd => exact ih
    | packs m I cwd => exact ih
    | run m I s t left hr => exact ih
    | post m I s x o rest hp => exact ih

/-- A backup that has finished has its snapshot there, if it makes one, and it is of what was to be backed up. -/
theorem finished_holds (hU : Apart ids U X S) (hH : Healthy C ids R0) (hK : Known ids U X S R0) (hT : Tidy R0)
    (h : Mixed.Reachable ids (May C cut ids cores U X S R0) R0 m) (ht : Together ids X R0 m)
    {k : ι} {p : Proc Id} (hk : m.shared.proc k = some p) (hf : p.finished)
    (hb : IsBackup C cut ids cores p.job a plan) {sn : Snapshot Id} (hsn : plan.post = .ok [.putSnap sn]) :
    (ids.snapId sn, sn) ∈ m.shared.repo.snapshots ∧
    Holds C m.shared.repo sn.tree (arrange (keep a.filter a.pathOf a.fs)) := by
  obtain ⟨alone, hi⟩ := inv hU hH hK hT may_brings h ht
  have hW := started hU hH hK hT h ht k p hk
  have hB := hb.backs (orderly hW)
  obtain ⟨r, done, e1, e2, e3, e4⟩ := (hi.runs k p hk).run
  have hA := (hi.runs k p hk).brings
  rw [hf.2, List.append_nil] at e1
  have hposts : p.job.posts = [.putSnap sn] := by
    rw [hb.job.2.2]; unfold Plan.posts; rw [hsn]
  rw [hposts] at e1
  subst e1
  have hr := hA.reach e2
  obtain ⟨_, f2, f3⟩ := grow hA.run hB.sound (c := own ids cores p.job) (covers_plain hB.sup) hB.ledger hB.fresh hB.idx hr
  rw [on_repo] at f2 f3
  have hmono : ∀ b, Has C r b → Has C m.shared.repo b := fun b hb => has_mono
    (fun e he => hi.core.packs k _ (jobs_of hk) e (by rw [e4]; exact he))
    (fun q mf hl => hi.core.listed k _ (jobs_of hk) q mf (by rw [e4]; exact hl)) hb
  refine ⟨hi.core.snaps k _ (jobs_of hk) _ ?_, hB.holds _ (fun b h1 _ => hmono b (f2 b h1))
    (fun b h1 => hmono b (f3 hf.1 b h1)) sn hsn⟩
  rw [e4]
  have hsn' := (effect hA.run hr).snaps
  rw [on_repo] at hsn'
  show _ ∈ BMap.insert (ids.snapId sn) sn r.snapshots
  rw [hsn']
  exact (BMap.mem_insert_iff hW.snapshots_sorted).mpr (.inl ⟨rfl, rfl⟩)

/-- A rebuild that has finished has its index there; it lists every pack there was at first, and no index that was
there then counts. -/
theorem rebuilt (hU : Apart ids U X S) (hH : Healthy C ids R0) (hK : Known ids U X S R0) (hT : Tidy R0)
    (h : Mixed.Reachable ids (May C cut ids cores U X S R0) R0 m) (ht : Together ids X R0 m)
    {x : Index Id} (hf : m.rb.finished x) :
    LiveIndex m.shared.repo.indexes (ids.indexId x) x ∧
    (∀ p bs, (p, bs) ∈ R0.packs → (p, Pack.manifestOf bs) ∈ x.packs) ∧
    ∀ i y, (i, y) ∈ R0.indexes → ∀ z, ¬ LiveIndex m.shared.repo.indexes i z := by
  obtain ⟨alone, hi⟩ := inv hU hH hK hT may_brings h ht
  obtain ⟨m, rb⟩ := m
  cases rb with
  | no => cases hf
  | listed I c => cases hf
  | running I s left =>
    obtain ⟨hp, _⟩ := hf
    have hph := hi.phase.2
    simp only [hp] at hph
    refine ⟨⟨hph.there, hph.fresh hph.there hph.new rfl⟩, ?_, ?_⟩
    · intro p bs hb
      obtain ⟨mf, h1⟩ := BMap.mem_keys_iff.mp (hph.cover0 p (BMap.mem_keys_of_mem hb))
      have h1 := BMap.mem_of_get? h1
      obtain ⟨bs', h2, h3⟩ := (hi.core.lists _ _ hph.there).2 p mf h1
      have : bs' = bs := hi.core.ledger.one p bs' bs h2 (hi.core.base _ hb)
      subst this
      rw [h3]
      exact h1
    · rintro i y hy z ⟨_, h2⟩
      exact h2 ⟨_, x, hph.there, by rw [hph.sup]; exact hph.base _ hy⟩

/-- Whatever the backups do, the rebuild can go on to its end: nothing it meets stops it. -/
theorem completes (hU : Apart ids U X S) (hH : Healthy C ids R0) (hK : Known ids U X S R0) (hT : Tidy R0)
    (h : Mixed.Reachable ids (May C cut ids cores U X S R0) R0 m) (ht : Together ids X R0 m)
    (hne : R0.packs ≠ [] ∨ R0.indexes ≠ []) :
    ∃ m' x, Relation.ReflTransGen (Mixed.Step ids (May C cut ids cores U X S R0)) m m' ∧ m'.rb.finished x ∧
      m'.shared.proc = m.shared.proc := by
  obtain ⟨alone, hi⟩ := inv hU hH hK hT may_brings h ht
  exact hi.completes hne

end

/-! ## A backup that runs while the rebuild does -/

/-- The indexes: of backups, and of a rebuild of `C27.repo2`. -/
def X (x : Index ObjectId) : Prop :=
  (x.supersedes = [] ∨ x.supersedes = BMap.keys C27.repo2.indexes) ∧ x.packs.Sublist C66.entries

theorem indexes_inj : ((C66.entries.sublists'.flatMap fun ps =>
    [(⟨[], ps⟩ : Index ObjectId), ⟨BMap.keys C27.repo2.indexes, ps⟩]).map C27.fullIds.indexId).Nodup := by
  decide +kernel

theorem apart : Apart C27.fullIds C66.U X C66.S := by
  refine ⟨C66.apart.packs, ?_, C66.apart.snaps⟩
  have hm : ∀ x, X x → x ∈ C66.entries.sublists'.flatMap fun ps =>
      [(⟨[], ps⟩ : Index ObjectId), ⟨BMap.keys C27.repo2.indexes, ps⟩] := by
    rintro ⟨xs, xp⟩ ⟨h1, h2⟩
    refine List.mem_flatMap.mpr ⟨xp, List.mem_sublists'.mpr h2, ?_⟩
    rcases h1 with h1 | h1
    · cases h1; exact List.mem_cons_self
    · cases h1; exact List.mem_cons_of_mem _ List.mem_cons_self
  exact fun x y hx hy he => List.inj_on_of_nodup_map indexes_inj (hm x hx) (hm y hy) he

theorem known2 : Known C27.fullIds C66.U X C66.S C27.repo2 := by
  have h2 : ∀ e ∈ C27.repo2.indexes, e.1 = C27.fullIds.indexId e.2 ∧ e.2.supersedes = [] ∧
    e.2.packs ∈ C66.entries.sublists' := by decide +kernel
  refine ⟨C66.known2.packs, fun i x h => ?_, C66.known2.snaps⟩
  obtain ⟨g1, g2, g3⟩ := h2 _ h
  exact ⟨g1, .inl g2, List.mem_sublists'.mp g3⟩

theorem tidy2 : Tidy C27.repo2 := by
  have h1 : ∀ e ∈ C27.repo2.packs, (e.1, Pack.manifestOf e.2) ∈ Check.listed C27.repo2 := by decide +kernel
  have h2 : ∀ e ∈ C27.repo2.indexes, ∀ l ∈ e.2.packs, l ∈ Check.listed C27.repo2 := by decide +kernel
  exact ⟨fun q bs h => Check.mem_listed.mp (h1 _ h), fun i x h q mf hq => Check.mem_listed.mp (h2 _ h _ hq)⟩

/-- What may start. -/
abbrev Can : Job ObjectId → Prop := May Demo.codec Demo.cut C27.fullIds 4 C66.U X C66.S C27.repo2

theorem can3 : Can (C66.jobIn C27.repo2 C65.args3) := by
  have h := C66.good3.may (R0 := C27.repo2) C66.no_super
  refine ⟨⟨_, _, C66.good3.backup⟩, ?_, h.packs, ?_, h.snaps⟩
  · rintro x _ ⟨i, y, h1, h2⟩
    rw [C66.no_super _ h1] at h2
    cases h2
  · intro x hx
    obtain ⟨h1, h2⟩ := writes_sublist C66.good3.start hx (BMap.sorted_ofList _)
      (fun bs hb => C66.entries_in bs (C66.good3.formed bs hb))
    exact ⟨.inl h1, h2⟩

/-- The repository when the backup is done. -/
def repo4 : Repo ObjectId := C27.endedAt (C66.planIn C27.repo2 C65.args3) C27.repo2

theorem packs4 : ∀ e ∈ repo4.packs, (e.1, Pack.manifestOf e.2) ∈ C66.entries := by decide +kernel

theorem sorted4 : BMap.Sorted repo4.packs := by unfold BMap.Sorted; decide +kernel

theorem some4 : BMap.keys C27.repo2.indexes ≠ [] := by decide +kernel

/-- The rebuild lists the indexes; a backup starts and finishes; the rebuild lists the packs and goes on to its end,
and stores an index that lists the packs of the backup as well. -/
theorem beside_run : ∃ (m : Mixed Unit ObjectId) (p : Proc ObjectId) (x : Index ObjectId),
    Mixed.Reachable C27.fullIds Can C27.repo2 m ∧ Together C27.fullIds X C27.repo2 m ∧ m.rb.finished x ∧
    m.shared.proc () = some p ∧ p.job = C66.jobIn C27.repo2 C65.args3 ∧ p.finished := by
  let j := C66.jobIn C27.repo2 C65.args3
  let m1 : Shared Unit ObjectId := ⟨C27.repo2, Function.update (fun _ => none) () (some ⟨j, init j.c j.w j.main, j.posts⟩)⟩
  have s1 : Shared.Step Can ⟨C27.repo2, fun _ => none⟩ m1 :=
    Shared.Step.start ⟨C27.repo2, fun _ => none⟩ () j rfl rfl can3
  obtain ⟨p, p1, p2, s2⟩ := lift_finished (may := Can) (m := m1) (i := ()) (j := j)
    (w' := Demo.clean repo4) rfl (C27.ends (by decide +kernel))
  let I := BMap.keys C27.repo2.indexes
  have up : ∀ {a b : Shared Unit ObjectId} (r : Rebuilder ObjectId), Relation.ReflTransGen (Shared.Step Can) a b →
      Relation.ReflTransGen (Mixed.Step C27.fullIds Can) ⟨a, r⟩ ⟨b, r⟩ := by
    intro a b r h
    induction h with
    | refl => exact .refl
    | tail _ hs ih => exact ih.tail (.other _ _ r hs)
  let m2 : Shared Unit ObjectId := ⟨repo4, Function.update m1.proc () (some p)⟩
  have t1 : Mixed.Reachable C27.fullIds Can C27.repo2 ⟨m2, .listed I ⟨none, [], []⟩⟩ :=
    .head (.indexes ⟨C27.repo2, fun _ => none⟩ ⟨none, [], []⟩) (up _ (.head s1 s2))
  have t2 := t1.tail (.packs m2 I ⟨none, [], []⟩)
  obtain ⟨t, y, h1, h2, h3, h4, h5, h6, _⟩ := gather_run (ids := C27.fullIds) (R := repo4) _
    ⟨⟨repo4, ⟨none, [], []⟩⟩, BMap.keys repo4.packs, [], .gather ⟨I, []⟩⟩ ⟨I, []⟩ rfl rfl rfl
    BMap.sorted_nil (fun q h => h) (by simpa [BMap.keys] using sorted4.nodup) (.inl some4)
  have t3 := t2.trans (lift_rebuild (may := Can) (f := m2.proc) (I := I) (left := I.map .rmIndex) h1)
  have t4 := t3.tail (Mixed.Step.run ⟨t.world.repo, m2.proc⟩ I t _ _ (.move (onRepo t t.world.repo) y h2 rfl))
  have t5 := t4.trans (lift_removals (may := Can) (x := y) rfl _ _)
  refine ⟨_, p, y, t5, ⟨?_, ?_⟩, ⟨rfl, rfl⟩, rfl, p1, p2⟩
  · rintro ⟨⟩ ⟨⟩ _ _ _ _ hne
    exact absurd rfl hne
  · rintro x ⟨⟩
    refine ⟨⟨.inr h4, ?_⟩, ?_⟩
    · refine sublist_of_sorted h5 (BMap.sorted_ofList _) ?_
      rintro ⟨q, mf⟩ he
      rcases h6 q mf he with h | h | ⟨bs, h, rfl⟩
      · cases h
      · cases h
      · exact packs4 _ h
    · rintro ⟨i, z, g1, g2⟩
      rw [C66.no_super _ g1] at g2
      cases g2

/-- All the theorems apply. -/
example : ∃ (m : Mixed Unit ObjectId) (p : Proc ObjectId) (x : Index ObjectId) (sn : Snapshot ObjectId),
    Mixed.Reachable C27.fullIds Can C27.repo2 m ∧ m.rb.finished x ∧
    m.shared.proc () = some p ∧ p.job = C66.jobIn C27.repo2 C65.args3 ∧ p.finished ∧
    Healthy Demo.codec C27.fullIds m.shared.repo ∧ LiveIndex m.shared.repo.indexes (C27.fullIds.indexId x) x ∧
    (C27.fullIds.snapId sn, sn) ∈ m.shared.repo.snapshots ∧
    Holds Demo.codec m.shared.repo sn.tree (arrange (keep C65.args3.filter C65.args3.pathOf C65.args3.fs)) := by
  obtain ⟨m, p, x, h1, h2, h3, h4, h5, h6⟩ := beside_run
  have hsn : (C66.planIn C27.repo2 C65.args3).post = .ok [.putSnap (C66.snapOf (C66.planIn C27.repo2 C65.args3))] := by
    decide +kernel
  have hb : IsBackup Demo.codec Demo.cut C27.fullIds 4 p.job C65.args3 (C66.planIn C27.repo2 C65.args3) := by
    rw [h5]; exact C66.good3.backup
  obtain ⟨g1, g2⟩ := finished_holds apart C27.healthy2 known2 tidy2 h1 h2 h4 h6 hb hsn
  exact ⟨m, p, x, _, h1, h3, h4, h5, h6, (always_healthy apart C27.healthy2 known2 tidy2 h1 h2).1,
    (rebuilt apart C27.healthy2 known2 tidy2 h1 h2 h3).1, g1, g2⟩

/-! ## A prune that runs while the rebuild does -/

/-- What a rebuild of `C27.repo2` alone stores. -/
def index2 : Index ObjectId := ⟨BMap.keys C27.repo2.indexes, C27.repo2.packs.map fun e => (e.1, Pack.manifestOf e.2)⟩

/-- The repository when the prune is done, the index of the rebuild is stored and the removals are made. -/
def repo5 : Repo ObjectId := ((BMap.keys C27.repo2.indexes).map Post.rmIndex).foldl (applyPost C27.fullIds)
  (putItem C27.repo3 (.index (C27.fullIds.indexId index2) index2))

theorem sorted2 : BMap.Sorted C27.repo2.packs ∧ BMap.Sorted index2.packs := by
  unfold BMap.Sorted; decide +kernel

theorem missing5 : ∃ e ∈ Check.listed repo5, e.1 ∉ BMap.keys repo5.packs := by decide +kernel

/-- With a prune in place of the backup it is not so. The rebuild has read the packs; the prune removes some of them,
and stores its index, which the rebuild does not replace; the rebuild stores its own. A live index now lists a pack
that is not there: a later backup takes the blobs of it for stored. -/
theorem prune_beside_misleads : ∃ (m : Mixed Unit ObjectId) (p : Proc ObjectId) (x : Index ObjectId),
    Mixed.Reachable C27.fullIds (C66.Can C27.repo2) C27.repo2 m ∧ Healthy Demo.codec C27.fullIds C27.repo2 ∧
    m.rb.finished x ∧ m.shared.proc () = some p ∧ p.job = C66.prune2 ∧ p.finished ∧
    ∃ q mf, Listed m.shared.repo.indexes q mf ∧ ∀ bs, (q, bs) ∉ m.shared.repo.packs := by
  let j := C66.prune2
  let m1 : Shared Unit ObjectId := ⟨C27.repo2, Function.update (fun _ => none) () (some ⟨j, init j.c j.w j.main, j.posts⟩)⟩
  have s1 : Shared.Step (C66.Can C27.repo2) ⟨C27.repo2, fun _ => none⟩ m1 :=
    Shared.Step.start ⟨C27.repo2, fun _ => none⟩ () j rfl rfl (C66.may_prune2 _)
  obtain ⟨p, p1, p2, s2⟩ := lift_finished (may := C66.Can C27.repo2) (m := m1) (i := ()) (j := j)
    (w' := Demo.clean C27.repo3) rfl (C27.ends C27.can3)
  let I := BMap.keys C27.repo2.indexes
  have up : ∀ {a b : Shared Unit ObjectId} (r : Rebuilder ObjectId),
      Relation.ReflTransGen (Shared.Step (C66.Can C27.repo2)) a b →
      Relation.ReflTransGen (Mixed.Step C27.fullIds (C66.Can C27.repo2)) ⟨a, r⟩ ⟨b, r⟩ := by
    intro a b r h
    induction h with
    | refl => exact .refl
    | tail _ hs ih => exact ih.tail (.other _ _ r hs)
  have t1 : Mixed.Reachable C27.fullIds (C66.Can C27.repo2) C27.repo2 ⟨⟨C27.repo2, fun _ => none⟩, .listed I ⟨none, [], []⟩⟩ :=
    .single (Mixed.Step.indexes (⟨C27.repo2, fun _ => none⟩ : Shared Unit ObjectId) ⟨none, [], []⟩)
  have t2 := t1.tail (.packs ⟨C27.repo2, fun _ => none⟩ I ⟨none, [], []⟩)
  obtain ⟨t, y, h1, h2, h3, h4, h5, h6, h7⟩ := gather_run (ids := C27.fullIds) (R := C27.repo2) _
    ⟨⟨C27.repo2, ⟨none, [], []⟩⟩, BMap.keys C27.repo2.packs, [], .gather ⟨I, []⟩⟩ ⟨I, []⟩ rfl rfl rfl
    BMap.sorted_nil (fun q h => h) (by simpa [BMap.keys] using sorted2.1.nodup) (.inl some4)
  have hy : y = index2 := by
    obtain ⟨ys, yp⟩ := y
    have e1 : yp.Sublist index2.packs := by
      refine sublist_of_sorted h5 sorted2.2 ?_
      rintro ⟨q, mf⟩ he
      rcases h6 q mf he with h | h | ⟨bs, h, rfl⟩
      · cases h
      · cases h
      · exact List.mem_map.mpr ⟨_, h, rfl⟩
    have e2 : index2.packs.length ≤ yp.length := by
      have := (List.subperm_of_subset sorted2.1.nodup (fun q hq => h7 q (List.mem_append_left _ hq))).length_le
      simpa [BMap.keys, index2] using this
    cases h4
    cases e1.eq_of_length_le e2
    rfl
  subst hy
  have t3 := t2.trans (lift_rebuild (ι := Unit) (may := C66.Can C27.repo2) (f := fun _ => none) (I := I) (left := I.map .rmIndex) h1)
  rw [h3] at t3
  have t4 := t3.trans (up _ (.head s1 s2))
  have t5 := t4.tail (Mixed.Step.run ⟨C27.repo3, Function.update m1.proc () (some p)⟩ I t _ _ (.move (onRepo t C27.repo3) _ h2 rfl))
  have t6 := t5.trans (lift_removals (may := C66.Can C27.repo2) (x := index2) rfl _ _)
  refine ⟨_, p, index2, t6, C27.healthy2, ⟨rfl, rfl⟩, rfl, p1, p2, ?_⟩
  obtain ⟨⟨pk, mf⟩, g1, g2⟩ := missing5
  exact ⟨pk, mf, Check.mem_listed.mp g1, fun bs h => g2 (BMap.mem_keys_of_mem h)⟩

end Backpak.C67
