import Verif.Lemmas.SharedRun
import Verif.Props.C20
import Verif.Props.C27

/-!
# C65 - Backups made at the same time

True of backups that have no new data in common; false otherwise.
-/

namespace Backpak.C65

open Spec Pipeline

variable {ι Id : Type} [DecidableEq ι] [LinearOrder Id]

/-- Process `j` makes the backup with arguments `a`. The caveats are those of `C13`, and that it does
not resume from what a rebuild-index or prune left. -/
structure IsBackup (C : Codec Id) (cut : Bytes → Nat) (ids : Ids Id) (cores : Nat) (j : Job Id) (a : BackupArgs)
    (plan : Plan Id) : Prop where
  ok : Healthy C ids j.w.repo → ∃ src snaps, BackupOk C cut ids j.w src snaps a ∧
    NoClash C cut ids cores j.w src snaps a plan ∧ backupPlan C cut j.w src snaps a = .ok plan
  live : a.dryRun = false
  plain : plan.start.supersedes = []
  job : j.c = liveCfg ids cores plan.start ∧ j.main = plan.main ∧ j.posts = plan.posts

/-- Sets of packs, indexes and snapshots in each of which no two have one ID. -/
structure Apart (ids : Ids Id) (U : Pack Id → Prop) (X : Index Id → Prop) (S : Snapshot Id → Prop) : Prop where
  packs : ∀ a b, U a → U b → ids.packId (Pack.manifestOf a) = ids.packId (Pack.manifestOf b) → a = b
  indexes : ∀ x y, X x → X y → ids.indexId x = ids.indexId y → x = y
  snaps : ∀ s t, S s → S t → ids.snapId s = ids.snapId t → s = t

/-- A repository whose objects are in these sets, each under its ID. -/
structure Known (ids : Ids Id) (U : Pack Id → Prop) (X : Index Id → Prop) (S : Snapshot Id → Prop)
    (R : Repo Id) : Prop where
  packs : ∀ p bs, (p, bs) ∈ R.packs → p = ids.packId (Pack.manifestOf bs) ∧ U bs
  indexes : ∀ i x, (i, x) ∈ R.indexes → i = ids.indexId x ∧ X x
  snaps : ∀ i s, (i, s) ∈ R.snapshots → i = ids.snapId s ∧ S s

/-- The processes that may start: backups whose objects are in these sets. -/
structure Allowed (C : Codec Id) (cut : Bytes → Nat) (ids : Ids Id) (cores : Nat) (U : Pack Id → Prop)
    (X : Index Id → Prop) (S : Snapshot Id → Prop) (j : Job Id) : Prop where
  backup : ∃ a plan, IsBackup C cut ids cores j a plan
  packs : ∀ bs, (∃ p, (p, bs) ∈ j.w.cwd.packs) ∨ FormedBy j.main bs → U bs
  indexes : ∀ x, Writes j.c (sends j.main) x → X x
  snaps : ∀ s, Post.putSnap s ∈ j.posts → S s

/-- No two processes add the same blob. -/
def Disjoint (m : Shared ι Id) : Prop :=
  ∀ i k p q, m.proc i = some p → m.proc k = some q → i ≠ k →
    ∀ x ∈ adds p.job.c.start p.job.main, x ∉ adds q.job.c.start q.job.main

section

variable {C : Codec Id} {cut : Bytes → Nat} {ids : Ids Id} {cores : Nat} {U : Pack Id → Prop}
  {X : Index Id → Prop} {S : Snapshot Id → Prop} {R0 : Repo Id}

/-- What is known of a process, and of what the repository would hold had it run alone. -/
structure Each (C : Codec Id) (cut : Bytes → Nat) (ids : Ids Id) (cores : Nat) (U : Pack Id → Prop)
    (X : Index Id → Prop) (S : Snapshot Id → Prop) (p : Proc Id) (A : Repo Id) : Prop where
  allowed : Allowed C cut ids cores U X S p.job
  healthy : Healthy C ids p.job.w.repo
  known : Known ids U X S p.job.w.repo
  run : ∃ r done, p.job.posts = done ++ p.left ∧ Reachable p.job.c p.job.w p.job.main (p.s.on r) ∧
    (done ≠ [] → p.s.joined = true) ∧ A = done.foldl (applyPost ids) r

/-- What follows. -/
structure Facts (C : Codec Id) (ids : Ids Id) (U : Pack Id → Prop) (X : Index Id → Prop) (S : Snapshot Id → Prop)
    (p : Proc Id) (A : Repo Id) : Prop where
  known : Known ids U X S A
  healthy : Healthy C ids A
  keepPacks : ∀ e ∈ p.job.w.repo.packs, e ∈ A.packs
  keepIndexes : ∀ e ∈ p.job.w.repo.indexes, e ∈ A.indexes
  keepSnaps : ∀ e ∈ p.job.w.repo.snapshots, e ∈ A.snapshots
  sup : ∀ k, Superseded A.indexes k ↔ Superseded p.job.w.repo.indexes k
  listed : ∀ q mf, Listed A.indexes q mf → Listed p.job.w.repo.indexes q mf ∨
    ∀ e ∈ mf, e.id ∈ adds p.job.c.start p.job.main

theorem mem_put {K V : Type} [LinearOrder K] {m : BMap K V} (hs : BMap.Sorted m) {k : K} {v : V}
    (h : ∀ v', (k, v') ∈ m → v' = v) (e : K × V) : e ∈ BMap.insert k v m ↔ e = (k, v) ∨ e ∈ m := by
  obtain ⟨k', v'⟩ := e
  rw [BMap.mem_insert_iff hs, Prod.mk.injEq]
  constructor
  · rintro (⟨rfl, rfl⟩ | ⟨_, h'⟩)
    · exact .inl ⟨rfl, rfl⟩
    · exact .inr h'
  · rintro (⟨rfl, rfl⟩ | h')
    · exact .inl ⟨rfl, rfl⟩
    · by_cases hk : k' = k
      · subst hk; exact .inl ⟨rfl, h _ h'⟩
      · exact .inr ⟨hk, h'⟩

theorem posts_one {j : Job Id} (hA : Allowed C cut ids cores U X S j) (hH : Healthy C ids j.w.repo) :
    j.posts = [] ∨ ∃ sn, j.posts = [.putSnap sn] ∧ S sn := by
  obtain ⟨a, plan, hb⟩ := hA.backup
  obtain ⟨src, snaps, _, _, hp⟩ := hb.ok hH
  obtain ⟨F, known, here, root, L, _, _, _, _, _, _, hpost⟩ := plan_ok hp
  rw [hb.job.2.2]
  rcases C13.posts_cases (C := C) (snaps := snaps) (a := a) ⟨_, _, _, hpost⟩ with h1 | ⟨sn, _, _, h1⟩
  · exact .inl h1
  · refine .inr ⟨sn, h1, hA.snaps sn ?_⟩
    rw [hb.job.2.2, h1]
    exact List.mem_singleton.mpr rfl

theorem Each.facts (hU : Apart ids U X S) {p : Proc Id} {A : Repo Id} (h : Each C cut ids cores U X S p A) :
    Facts C ids U X S p A := by
  obtain ⟨hA, hH, hK, r, done, h1, h2, h3, rfl⟩ := h
  have hposts := posts_one hA hH
  obtain ⟨a, plan, hb⟩ := hA.backup
  obtain ⟨src, snaps, hB, hN, hp⟩ := hb.ok hH
  obtain ⟨hc, hm, hpo⟩ := hb.job
  have hadd := backup_added hB hN hp hb.live hb.plain (s := p.s.on r) (by rw [← hc, ← hm]; exact h2)
  rw [on_repo, ← hc, ← hm] at hadd
  have hheal : Healthy C ids (done.foldl (applyPost ids) r) := by
    have hcfg : C13.cfg ids cores a plan = p.job.c := by rw [hc]; simp [C13.cfg, liveCfg, hb.live]
    have : Instant (C13.cfg ids cores a plan) p.job.w plan.main plan.posts
        ⟨done.foldl (applyPost ids) r, p.s.world.cwd⟩ := by
      rw [hcfg, ← hm, ← hpo]
      by_cases hd : done = []
      · subst hd; exact .during (p.s.on r) h2
      · have := Instant.after (post := p.job.posts) (p.s.on r) done p.left h2 (h3 hd) h1
        rw [hc] at this ⊢
        exact this
    exact C13.always_readable_partial _ _ hB (fun _ => hN) hp this
  have hsup : ∀ k, Superseded r.indexes k ↔ Superseded p.job.w.repo.indexes k := by
    intro k
    constructor
    · rintro ⟨j, x, hx, hk⟩
      rcases hadd.indexes j x hx with h | ⟨_, _, h, _⟩
      · exact ⟨j, x, h, hk⟩
      · rw [h] at hk; cases hk
    · rintro ⟨j, x, hx, hk⟩
      exact ⟨j, x, hadd.keepIndexes _ hx, hk⟩
  have hpk : ∀ q bs, (q, bs) ∈ r.packs → q = ids.packId (Pack.manifestOf bs) ∧ U bs := by
    intro q bs hq
    obtain ⟨h4, h5⟩ := hadd.packs q bs hq
    refine ⟨h4, ?_⟩
    rcases h5 with ⟨q', h5⟩ | h5
    · exact (hK.packs _ _ h5).2
    · exact hA.packs bs h5
  have hix : ∀ i x, (i, x) ∈ r.indexes → i = ids.indexId x ∧ X x := by
    intro i x hx
    rcases hadd.indexes i x hx with h | ⟨h4, h5, _⟩
    · exact hK.indexes _ _ h
    · exact ⟨h4, hA.indexes x h5⟩
  have hdone : done = [] ∨ ∃ sn, done = [.putSnap sn] ∧ S sn := by
    rcases hposts with h4 | ⟨sn, h4, h5⟩
    · rw [h4] at h1
      exact .inl (List.append_eq_nil_iff.mp h1.symm).1
    · rw [h4] at h1
      cases done with
      | nil => exact .inl rfl
      | cons o rest =>
        simp only [List.cons_append, List.cons.injEq] at h1
        obtain ⟨rfl, h1⟩ := h1
        rw [(List.append_eq_nil_iff.mp h1.symm).1]
        exact .inr ⟨sn, rfl, h5⟩
  rcases hdone with rfl | ⟨sn, rfl, hsn⟩
  · refine ⟨⟨hpk, hix, ?_⟩, hheal, hadd.keepPacks, hadd.keepIndexes, ?_, hsup, hadd.listed⟩
    · intro i s hs
      simp only [List.foldl_nil, hadd.snaps] at hs
      exact hK.snaps i s hs
    · intro e he
      simp only [List.foldl_nil, hadd.snaps]
      exact he
  · refine ⟨⟨hpk, hix, ?_⟩, hheal, hadd.keepPacks, hadd.keepIndexes, ?_, hsup, hadd.listed⟩
    · intro i s hs
      simp only [List.foldl_cons, List.foldl_nil, applyPost, hadd.snaps] at hs
      rcases BMap.mem_insert_of hs with ⟨rfl, rfl⟩ | hs
      · exact ⟨rfl, hsn⟩
      · exact hK.snaps i s hs
    · intro e he
      simp only [List.foldl_cons, List.foldl_nil, applyPost, hadd.snaps]
      refine (mem_put hH.snapshots_sorted (fun v hv => ?_) e).mpr (.inr he)
      obtain ⟨h4, h5⟩ := hK.snaps _ _ hv
      exact hU.snaps _ _ h5 hsn h4.symm

/-- The repository holds what it held at first and what each process would have made of it alone. -/
structure Inv (C : Codec Id) (cut : Bytes → Nat) (ids : Ids Id) (cores : Nat) (U : Pack Id → Prop)
    (X : Index Id → Prop) (S : Snapshot Id → Prop) (R0 : Repo Id) (m : Shared ι Id) (alone : ι → Repo Id) : Prop where
  each : ∀ i p, m.proc i = some p → Each C cut ids cores U X S p (alone i)
  psort : BMap.Sorted m.repo.packs
  isort : BMap.Sorted m.repo.indexes
  ssort : BMap.Sorted m.repo.snapshots
  packs : ∀ e, e ∈ m.repo.packs ↔ e ∈ R0.packs ∨ ∃ i p, m.proc i = some p ∧ e ∈ (alone i).packs
  indexes : ∀ e, e ∈ m.repo.indexes ↔ e ∈ R0.indexes ∨ ∃ i p, m.proc i = some p ∧ e ∈ (alone i).indexes
  snaps : ∀ e, e ∈ m.repo.snapshots ↔ e ∈ R0.snapshots ∨ ∃ i p, m.proc i = some p ∧ e ∈ (alone i).snapshots
  above : ∀ i p, m.proc i = some p → (∀ e ∈ R0.packs, e ∈ p.job.w.repo.packs) ∧
    (∀ e ∈ R0.indexes, e ∈ p.job.w.repo.indexes) ∧
    ∀ k, Superseded p.job.w.repo.indexes k ↔ Superseded R0.indexes k
  origin : ∀ i p, m.proc i = some p → ∀ q mf, Listed p.job.w.repo.indexes q mf → Listed R0.indexes q mf ∨
    ∃ k r, m.proc k = some r ∧ Listed (alone k).indexes q mf ∧ ∀ e ∈ mf, e.id ∈ adds r.job.c.start r.job.main

variable {m : Shared ι Id} {alone : ι → Repo Id}

omit [DecidableEq ι] in
theorem Inv.known (hU : Apart ids U X S) (hK : Known ids U X S R0) (h : Inv C cut ids cores U X S R0 m alone) :
    Known ids U X S m.repo := by
  refine ⟨fun p bs hp => ?_, fun i x hx => ?_, fun i s hs => ?_⟩
  · rcases (h.packs _).mp hp with h1 | ⟨k, r, h1, h2⟩
    · exact hK.packs _ _ h1
    · exact ((h.each k r h1).facts hU).known.packs _ _ h2
  · rcases (h.indexes _).mp hx with h1 | ⟨k, r, h1, h2⟩
    · exact hK.indexes _ _ h1
    · exact ((h.each k r h1).facts hU).known.indexes _ _ h2
  · rcases (h.snaps _).mp hs with h1 | ⟨k, r, h1, h2⟩
    · exact hK.snaps _ _ h1
    · exact ((h.each k r h1).facts hU).known.snaps _ _ h2

omit [DecidableEq ι] in
theorem Inv.sup (hU : Apart ids U X S) (h : Inv C cut ids cores U X S R0 m alone) (k : Id) :
    Superseded m.repo.indexes k ↔ Superseded R0.indexes k := by
  constructor
  · rintro ⟨j, x, hx, hk⟩
    rcases (h.indexes _).mp hx with h1 | ⟨i, r, h1, h2⟩
    · exact ⟨j, x, h1, hk⟩
    · exact ((h.above i r h1).2.2 k).mp ((((h.each i r h1).facts hU).sup k).mp ⟨j, x, h2, hk⟩)
  · rintro ⟨j, x, hx, hk⟩
    exact ⟨j, x, (h.indexes _).mpr (.inl hx), hk⟩

omit [DecidableEq ι] in
theorem Inv.sup_alone (hU : Apart ids U X S) (h : Inv C cut ids cores U X S R0 m alone) {i : ι} {p : Proc Id}
    (hi : m.proc i = some p) (k : Id) : Superseded (alone i).indexes k ↔ Superseded R0.indexes k :=
  (((h.each i p hi).facts hU).sup k).trans ((h.above i p hi).2.2 k)

theorem listed_mono {f g : BMap Id (Index Id)} (h : ∀ e ∈ f, e ∈ g)
    (hs : ∀ k, Superseded g k → Superseded f k) {q : Id} {mf : Manifest Id} (hl : Listed f q mf) : Listed g q mf := by
  obtain ⟨i, x, ⟨h1, h2⟩, h3⟩ := hl
  exact ⟨i, x, ⟨h _ h1, fun h4 => h2 (hs i h4)⟩, h3⟩

omit [DecidableEq ι] in
theorem Inv.listed (hU : Apart ids U X S) (h : Inv C cut ids cores U X S R0 m alone) (q : Id) (mf : Manifest Id) :
    Listed m.repo.indexes q mf ↔ Listed R0.indexes q mf ∨
      ∃ k r, m.proc k = some r ∧ Listed (alone k).indexes q mf ∧ ∀ e ∈ mf, e.id ∈ adds r.job.c.start r.job.main := by
  constructor
  · rintro ⟨i, x, ⟨h1, h2⟩, h3⟩
    rcases (h.indexes _).mp h1 with h4 | ⟨k, r, h4, h5⟩
    · exact .inl ⟨i, x, ⟨h4, fun h6 => h2 ((h.sup hU i).mpr h6)⟩, h3⟩
    · have hl : Listed (alone k).indexes q mf :=
        ⟨i, x, ⟨h5, fun h6 => h2 ((h.sup hU i).mpr ((h.sup_alone hU h4 i).mp h6))⟩, h3⟩
      rcases ((h.each k r h4).facts hU).listed q mf hl with h6 | h6
      · exact h.origin k r h4 q mf h6
      · exact .inr ⟨k, r, h4, hl, h6⟩
  · rintro (h1 | ⟨k, r, h1, h2, _⟩)
    · exact listed_mono (fun e he => (h.indexes e).mpr (.inl he)) (fun k hk => (h.sup hU k).mp hk) h1
    · exact listed_mono (fun e he => (h.indexes e).mpr (.inr ⟨k, r, h1, he⟩))
        (fun j hj => (h.sup_alone hU h1 j).mpr ((h.sup hU j).mp hj)) h2

omit [DecidableEq ι] in
theorem Inv.has (hU : Apart ids U X S) (h : Inv C cut ids cores U X S R0 m alone) {k : ι} {r : Proc Id}
    (hk : m.proc k = some r) (b : Blob Id) (hb : Has C (alone k) b) : Has C m.repo b := by
  obtain ⟨h1, q, bs, h2, h3, h4⟩ := hb
  exact ⟨h1, q, bs, listed_mono (fun e he => (h.indexes e).mpr (.inr ⟨k, r, hk, he⟩))
    (fun j hj => (h.sup_alone hU hk j).mpr ((h.sup hU j).mp hj)) h2, (h.packs _).mpr (.inr ⟨k, r, hk, h3⟩), h4⟩

omit [DecidableEq ι] in
theorem Inv.has0 (hU : Apart ids U X S) (h : Inv C cut ids cores U X S R0 m alone) (b : Blob Id)
    (hb : Has C R0 b) : Has C m.repo b := by
  obtain ⟨h1, q, bs, h2, h3, h4⟩ := hb
  exact ⟨h1, q, bs, (h.listed hU q _).mpr (.inl h2), (h.packs _).mpr (.inl h3), h4⟩

omit [DecidableEq ι] in
/-- If no two processes add the same blob, the repository is in good order. -/
theorem Inv.healthy (hU : Apart ids U X S) (hH : Healthy C ids R0) (hK : Known ids U X S R0)
    (h : Inv C cut ids cores U X S R0 m alone) (hd : Disjoint m) : Healthy C ids m.repo := by
  have hkn := h.known hU hK
  have hF := fun i p hi => (h.each i p hi).facts hU
  -- a pack with its manifest, in the first repository or in what a process made
  have hlive : ∀ q bs, Listed m.repo.indexes q (Pack.manifestOf bs) → (q, bs) ∈ m.repo.packs →
      LivePack R0 q bs ∨ ∃ k r, m.proc k = some r ∧ LivePack (alone k) q bs := by
    intro q bs hl hq
    rcases (h.listed hU q _).mp hl with h1 | ⟨k, r, h1, h2, _⟩
    · obtain ⟨cs, h2, h3⟩ := hH.present _ _ h1
      have : cs = bs := hU.packs _ _ (hK.packs _ _ h2).2 (hkn.packs _ _ hq).2
        ((hK.packs _ _ h2).1.symm.trans (hkn.packs _ _ hq).1)
      subst this
      exact .inl ⟨h1, h2⟩
    · obtain ⟨cs, h3, h4⟩ := (hF k r h1).healthy.present _ _ h2
      have : cs = bs := hU.packs _ _ ((hF k r h1).known.packs _ _ h3).2 (hkn.packs _ _ hq).2
        (((hF k r h1).known.packs _ _ h3).1.symm.trans (hkn.packs _ _ hq).1)
      subst this
      exact .inr ⟨k, r, h1, h2, h3⟩
  refine ⟨h.psort, h.isort, h.ssort, fun p bs hp => (hkn.packs p bs hp).1, fun i x hx => (hkn.indexes i x hx).1,
    ?_, ?_, ?_, ?_, ?_, ?_, ?_, ?_, ?_⟩
  · intro i x hx
    rcases (h.indexes _).mp hx with h1 | ⟨k, r, h1, h2⟩
    · exact hH.index_packs _ _ h1
    · exact (hF k r h1).healthy.index_packs _ _ h2
  · intro q mf hl
    rcases (h.listed hU q mf).mp hl with h1 | ⟨k, r, h1, h2, _⟩
    · obtain ⟨bs, h2, h3⟩ := hH.present _ _ h1
      exact ⟨bs, (h.packs _).mpr (.inl h2), h3⟩
    · obtain ⟨bs, h3, h4⟩ := (hF k r h1).healthy.present _ _ h2
      exact ⟨bs, (h.packs _).mpr (.inr ⟨k, r, h1, h3⟩), h4⟩
  · intro q mf hl
    rcases (h.listed hU q mf).mp hl with h1 | ⟨k, r, h1, h2, _⟩
    · exact hH.distinct _ _ h1
    · exact (hF k r h1).healthy.distinct _ _ h2
  · have up : ∀ k r, m.proc k = some r → ∀ q mf, Listed R0.indexes q mf → Listed (alone k).indexes q mf :=
      fun k r hk q mf hl => listed_mono (fun e he => (hF k r hk).keepIndexes e ((h.above k r hk).2.1 e he))
        (fun j hj => (h.sup_alone hU hk j).mp hj) hl
    intro p mf p' mf' e e' h1 h2 h3 h4 h5
    rcases (h.listed hU p mf).mp h1 with h1 | ⟨k, r, h1, h6, h7⟩
    · rcases (h.listed hU p' mf').mp h2 with h2 | ⟨l, s, h2, h8, h9⟩
      · exact hH.once _ _ _ _ _ _ h1 h2 h3 h4 h5
      · exact (hF l s h2).healthy.once _ _ _ _ _ _ (up l s h2 _ _ h1) h8 h3 h4 h5
    · rcases (h.listed hU p' mf').mp h2 with h2 | ⟨l, s, h2, h8, h9⟩
      · exact (hF k r h1).healthy.once _ _ _ _ _ _ h6 (up k r h1 _ _ h2) h3 h4 h5
      · by_cases hkl : k = l
        · subst hkl
          exact (hF k r h1).healthy.once _ _ _ _ _ _ h6 h8 h3 h4 h5
        · have := h9 e' h4
          rw [← h5] at this
          exact absurd this (hd k l r s h1 h2 hkl _ (h7 e h3))
  · intro q mf hl
    rcases (h.listed hU q mf).mp hl with h1 | ⟨k, r, h1, h2, _⟩
    · exact hH.one_kind _ _ h1
    · exact (hF k r h1).healthy.one_kind _ _ h2
  · intro q bs b hl hq hb
    rcases hlive q bs hl hq with h1 | ⟨k, r, h1, h2⟩
    · exact hH.hashes _ _ _ h1.1 h1.2 hb
    · exact (hF k r h1).healthy.hashes _ _ _ h2.1 h2.2 hb
  · intro q bs b hl hq hb
    rcases hlive q bs hl hq with h1 | ⟨k, r, h1, h2⟩
    · exact hH.trees _ _ _ h1.1 h1.2 hb
    · exact (hF k r h1).healthy.trees _ _ _ h2.1 h2.2 hb
  · intro q bs b hl hq hb
    rcases hlive q bs hl hq with h1 | ⟨k, r, h1, h2⟩
    · exact hH.full _ _ _ h1.1 h1.2 hb
    · exact (hF k r h1).healthy.full _ _ _ h2.1 h2.2 hb
  · intro i sn hs
    rcases (h.snaps _).mp hs with h1 | ⟨k, r, h1, h2⟩
    · obtain ⟨d, hd⟩ := hH.readable _ _ h1
      exact ⟨d, has_mono_holds (h.has0 hU) hd⟩
    · obtain ⟨d, hd⟩ := (hF k r h1).healthy.readable _ _ h2
      exact ⟨d, has_mono_holds (h.has hU h1) hd⟩

theorem upd_some {f : ι → Option (Proc Id)} {i k : ι} {p q : Proc Id}
    (h : Function.update f i (some p) k = some q) : (k = i ∧ q = p) ∨ (k ≠ i ∧ f k = some q) := by
  rw [Function.update_apply] at h
  split at h
  · exact .inl ⟨‹_›, (Option.some.inj h).symm⟩
  · exact .inr ⟨‹_›, h⟩

/-- One process went on, and did to the repository what it would have done alone. -/
theorem inv_upd (hU : Apart ids U X S) (h : Inv C cut ids cores U X S R0 m alone) {i : ι} {p p' : Proc Id}
    (hi : m.proc i = some p) (hj : p'.job = p.job) {A' R' : Repo Id} (hE : Each C cut ids cores U X S p' A')
    (s1 : BMap.Sorted R'.packs) (s2 : BMap.Sorted R'.indexes) (s3 : BMap.Sorted R'.snapshots)
    (h1 : ∀ e, e ∈ R'.packs ↔ e ∈ m.repo.packs ∨ e ∈ A'.packs)
    (h2 : ∀ e, e ∈ R'.indexes ↔ e ∈ m.repo.indexes ∨ e ∈ A'.indexes)
    (h3 : ∀ e, e ∈ R'.snapshots ↔ e ∈ m.repo.snapshots ∨ e ∈ A'.snapshots)
    (k1 : ∀ e ∈ (alone i).packs, e ∈ A'.packs) (k2 : ∀ e ∈ (alone i).indexes, e ∈ A'.indexes)
    (k3 : ∀ e ∈ (alone i).snapshots, e ∈ A'.snapshots) :
    Inv C cut ids cores U X S R0 ⟨R', Function.update m.proc i (some p')⟩ (Function.update alone i A') := by
  have union : ∀ {α : Type} (f : Repo Id → List α) (e : α),
      (∀ e, e ∈ f R' ↔ e ∈ f m.repo ∨ e ∈ f A') → (∀ e ∈ f (alone i), e ∈ f A') →
      (e ∈ f m.repo ↔ e ∈ f R0 ∨ ∃ k q, m.proc k = some q ∧ e ∈ f (alone k)) →
      (e ∈ f R' ↔ e ∈ f R0 ∨ ∃ k q, Function.update m.proc i (some p') k = some q ∧
        e ∈ f (Function.update alone i A' k)) := by
    intro α f e g1 g2 g3
    rw [g1, g3]
    constructor
    · rintro ((g4 | ⟨k, q, g4, g5⟩) | g4)
      · exact .inl g4
      · by_cases hk : k = i
        · subst hk
          exact .inr ⟨k, p', by simp, by simpa using g2 e g5⟩
        · exact .inr ⟨k, q, by rwa [Function.update_of_ne hk], by rwa [Function.update_of_ne hk]⟩
      · exact .inr ⟨i, p', by simp, by simpa using g4⟩
    · rintro (g4 | ⟨k, q, g4, g5⟩)
      · exact .inl (.inl g4)
      · rcases upd_some g4 with ⟨rfl, rfl⟩ | ⟨hk, g4⟩
        · exact .inr (by simpa using g5)
        · rw [Function.update_of_ne hk] at g5
          exact .inl (.inr ⟨k, q, g4, g5⟩)
  have job : ∀ k q, Function.update m.proc i (some p') k = some q → ∃ q', m.proc k = some q' ∧ q.job = q'.job := by
    intro k q hk
    rcases upd_some hk with ⟨rfl, rfl⟩ | ⟨_, hk⟩
    · exact ⟨p, hi, hj⟩
    · exact ⟨q, hk, rfl⟩
  refine ⟨?_, s1, s2, s3, fun e => union Repo.packs e h1 k1 (h.packs e),
    fun e => union Repo.indexes e h2 k2 (h.indexes e), fun e => union Repo.snapshots e h3 k3 (h.snaps e), ?_, ?_⟩
  · intro k q hk
    rcases upd_some hk with ⟨rfl, rfl⟩ | ⟨hne, hk⟩
    · simpa using hE
    · rw [Function.update_of_ne hne]
      exact h.each k q hk
  · intro k q hk
    obtain ⟨q', h4, h5⟩ := job k q hk
    rw [h5]
    exact h.above k q' h4
  · intro k q hk pk mf hl
    obtain ⟨q', h4, h5⟩ := job k q hk
    rw [h5] at hl
    rcases h.origin k q' h4 pk mf hl with h6 | ⟨l, r, h6, h7, h8⟩
    · exact .inl h6
    · right
      by_cases hli : l = i
      · subst hli
        rw [hi] at h6
        cases h6
        refine ⟨l, p', by simp, ?_, by rw [hj]; exact h8⟩
        rw [Function.update_self]
        refine listed_mono k2 (fun j hj' => ?_) h7
        have g1 := ((hE.facts hU).sup j).mp hj'
        rw [hj] at g1
        exact (((h.each l p hi).facts hU).sup j).mpr g1
      · exact ⟨l, r, (Function.update_of_ne hli ..).trans h6, by rwa [Function.update_of_ne hli], h8⟩

theorem disjoint_back {may : Job Id → Prop} {m m' : Shared ι Id} (hs : Shared.Step may m m') (hd : Disjoint m') :
    Disjoint m := by
  have job : ∀ k q, m.proc k = some q → ∃ q', m'.proc k = some q' ∧ q'.job = q.job := by
    intro k q hk
    cases hs with
    | start i j h1 h2 h3 =>
      have : k ≠ i := by rintro rfl; rw [h1] at hk; cases hk
      exact ⟨q, by simpa [Function.update_of_ne this] using hk, rfl⟩
    | run i p t h1 h2 h3 =>
      by_cases hki : k = i
      · subst hki
        rw [h1] at hk; cases hk
        exact ⟨_, Function.update_self .., rfl⟩
      · exact ⟨q, by simpa [Function.update_of_ne hki] using hk, rfl⟩
    | post i p o rest h1 h2 h3 =>
      by_cases hki : k = i
      · subst hki
        rw [h1] at hk; cases hk
        exact ⟨_, Function.update_self .., rfl⟩
      · exact ⟨q, by simpa [Function.update_of_ne hki] using hk, rfl⟩
  intro i k p q hi hk hne
  obtain ⟨p', h1, h2⟩ := job i p hi
  obtain ⟨q', h3, h4⟩ := job k q hk
  have := hd i k p' q' h1 h3 hne
  rwa [h2, h4] at this

/-- Putting the same object in the repository and in what the process would have made alone. -/
theorem put_both {K V : Type} [LinearOrder K] {k : K} {v : V} {m a : BMap K V} (hm : BMap.Sorted m)
    (ha : BMap.Sorted a) (h1 : ∀ v', (k, v') ∈ m → v' = v) (h2 : ∀ v', (k, v') ∈ a → v' = v)
    (hsub : ∀ e ∈ a, e ∈ m) :
    (∀ e, e ∈ BMap.insert k v m ↔ e ∈ m ∨ e ∈ BMap.insert k v a) ∧ ∀ e ∈ a, e ∈ BMap.insert k v a := by
  refine ⟨fun e => ?_, fun e he => (mem_put ha h2 e).mpr (.inr he)⟩
  rw [mem_put hm h1, mem_put ha h2]
  constructor
  · rintro (h | h)
    · exact .inr (.inl h)
    · exact .inl h
  · rintro (h | h | h)
    · exact .inr h
    · exact .inl h
    · exact .inr (hsub e h)

theorem inv_step (hU : Apart ids U X S) (hH : Healthy C ids R0) (hK : Known ids U X S R0) {m' : Shared ι Id}
    (h : Inv C cut ids cores U X S R0 m alone) (hd : Disjoint m')
    (hs : Shared.Step (Allowed C cut ids cores U X S) m m') : ∃ alone', Inv C cut ids cores U X S R0 m' alone' := by
  have hd0 := disjoint_back hs hd
  have hkn := h.known hU hK
  have self : ∀ {α : Type} (f : Repo Id → List α) (i : ι) (p : Proc Id), m.proc i = some p →
      (∀ e, e ∈ f m.repo ↔ e ∈ f R0 ∨ ∃ k q, m.proc k = some q ∧ e ∈ f (alone k)) →
      (∀ e, e ∈ f m.repo ↔ e ∈ f m.repo ∨ e ∈ f (alone i)) ∧ ∀ e ∈ f (alone i), e ∈ f m.repo := by
    intro α f i p hi g
    have : ∀ e ∈ f (alone i), e ∈ f m.repo := fun e he => (g e).mpr (.inr ⟨i, p, hi, he⟩)
    exact ⟨fun e => ⟨.inl, fun g1 => g1.elim id (this e)⟩, this⟩
  cases hs with
  | start i j h1 h2 h3 =>
    refine ⟨Function.update alone i m.repo, ?_⟩
    have old : ∀ k q, m.proc k = some q → k ≠ i := by rintro k q hk rfl; rw [h1] at hk; cases hk
    have union : ∀ {α : Type} (f : Repo Id → List α),
        (∀ e, e ∈ f m.repo ↔ e ∈ f R0 ∨ ∃ k q, m.proc k = some q ∧ e ∈ f (alone k)) →
        ∀ e, (e ∈ f m.repo ↔ e ∈ f R0 ∨
          ∃ k q, Function.update m.proc i (some ⟨j, init j.c j.w j.main, j.posts⟩) k = some q ∧
          e ∈ f (Function.update alone i m.repo k)) := by
      intro α f g e
      constructor
      · intro g1
        exact .inr ⟨i, _, Function.update_self .., by rwa [Function.update_self]⟩
      · rintro (g1 | ⟨k, q, g1, g2⟩)
        · exact (g e).mpr (.inl g1)
        · rcases upd_some g1 with ⟨rfl, _⟩ | ⟨hk, g1⟩
          · rwa [Function.update_self] at g2
          · rw [Function.update_of_ne hk] at g2
            exact (g e).mpr (.inr ⟨k, q, g1, g2⟩)
    refine ⟨?_, h.psort, h.isort, h.ssort, union Repo.packs h.packs, union Repo.indexes h.indexes,
      union Repo.snapshots h.snaps, ?_, ?_⟩
    · intro k q hk
      rcases upd_some hk with ⟨rfl, rfl⟩ | ⟨hne, hk⟩
      · rw [Function.update_self]
        refine ⟨h3, by rw [h2]; exact h.healthy hU hH hK hd0, by rw [h2]; exact hkn, m.repo, [], rfl, ?_,
          by simp, rfl⟩
        have : (init j.c j.w j.main).on m.repo = init j.c j.w j.main := by rw [← h2]; rfl
        simp only [this]
        exact .refl
      · rw [Function.update_of_ne hne]
        exact h.each k q hk
    · intro k q hk
      rcases upd_some hk with ⟨rfl, rfl⟩ | ⟨hne, hk⟩
      · rw [h2]
        exact ⟨fun e he => (h.packs e).mpr (.inl he), fun e he => (h.indexes e).mpr (.inl he), h.sup hU⟩
      · exact h.above k q hk
    · have carry : ∀ q mf, (Listed R0.indexes q mf ∨ ∃ k r, m.proc k = some r ∧ Listed (alone k).indexes q mf ∧
          ∀ e ∈ mf, e.id ∈ adds r.job.c.start r.job.main) →
          Listed R0.indexes q mf ∨ ∃ k r, Function.update m.proc i
            (some ⟨j, init j.c j.w j.main, j.posts⟩) k = some r ∧
            Listed (Function.update alone i m.repo k).indexes q mf ∧
            ∀ e ∈ mf, e.id ∈ adds r.job.c.start r.job.main := by
        rintro q mf (g | ⟨k, r, g1, g2, g3⟩)
        · exact .inl g
        · exact .inr ⟨k, r, by rwa [Function.update_of_ne (old k r g1)], by rwa [Function.update_of_ne (old k r g1)], g3⟩
      intro k q hk pk mf hl
      rcases upd_some hk with ⟨rfl, rfl⟩ | ⟨hne, hk⟩
      · rw [h2] at hl
        exact carry pk mf ((h.listed hU pk mf).mp hl)
      · exact carry pk mf (h.origin k q hk pk mf hl)
  | run i p t h1 h2 h3 =>
    obtain ⟨o, f1, _, f3⟩ := step_frame h3
    rw [on_repo] at f1
    have hE := h.each i p h1
    obtain ⟨r, done, e1, e2, e3, e4⟩ := hE.run
    have hdone : done = [] := by
      by_contra hne
      rw [e3 hne] at h2
      cases h2
    subst hdone
    rw [List.foldl_nil] at e4
    have hstep : Step p.job.c (p.s.on r) (t.on (puts r o)) := f3 r
    have hE' : Each C cut ids cores U X S { p with s := t } (puts r o) :=
      ⟨hE.allowed, hE.healthy, hE.known, puts r o, [], e1, .tail e2 hstep, by simp, rfl⟩
    refine ⟨Function.update alone i (puts r o), ?_⟩
    have hf := hE.facts hU
    have hf' := hE'.facts hU
    rw [e4] at hf
    obtain ⟨a1, a2⟩ := self Repo.packs i p h1 h.packs
    obtain ⟨b1, b2⟩ := self Repo.indexes i p h1 h.indexes
    obtain ⟨c1, c2⟩ := self Repo.snapshots i p h1 h.snaps
    rw [f1]
    cases o with
    | none =>
      refine inv_upd (p' := { p with s := t }) hU h h1 rfl hE' h.psort h.isort h.ssort ?_ ?_ ?_ ?_ ?_ ?_
      · intro e; rw [← e4] at *; exact a1 e
      · intro e; rw [← e4] at *; exact b1 e
      · intro e; rw [← e4] at *; exact c1 e
      · intro e he; rw [e4] at he; exact he
      · intro e he; rw [e4] at he; exact he
      · intro e he; rw [e4] at he; exact he
    | some it =>
      rw [e4] at a1 a2 b1 b2 c1 c2
      cases it with
      | pack q bs =>
        have hin : (q, bs) ∈ (puts r (some (.pack q bs))).packs :=
          (BMap.mem_insert_iff hf.healthy.packs_sorted).mpr (.inl ⟨rfl, rfl⟩)
        have hq := hf'.known.packs _ _ hin
        obtain ⟨g1, g2⟩ := put_both (k := q) (v := bs) h.psort hf.healthy.packs_sorted
          (fun v hv => hU.packs _ _ (hkn.packs _ _ hv).2 hq.2 ((hkn.packs _ _ hv).1.symm.trans hq.1))
          (fun v hv => hU.packs _ _ (hf.known.packs _ _ hv).2 hq.2 ((hf.known.packs _ _ hv).1.symm.trans hq.1)) a2
        exact inv_upd (p' := { p with s := t }) hU h h1 rfl hE' (BMap.sorted_insert h.psort _ _) h.isort h.ssort g1 b1 c1
          (by rw [e4]; exact g2) (by rw [e4]; exact fun e he => he) (by rw [e4]; exact fun e he => he)
      | index q x =>
        have hin : (q, x) ∈ (puts r (some (.index q x))).indexes :=
          (BMap.mem_insert_iff hf.healthy.indexes_sorted).mpr (.inl ⟨rfl, rfl⟩)
        have hq := hf'.known.indexes _ _ hin
        obtain ⟨g1, g2⟩ := put_both (k := q) (v := x) h.isort hf.healthy.indexes_sorted
          (fun v hv => hU.indexes _ _ (hkn.indexes _ _ hv).2 hq.2 ((hkn.indexes _ _ hv).1.symm.trans hq.1))
          (fun v hv => hU.indexes _ _ (hf.known.indexes _ _ hv).2 hq.2 ((hf.known.indexes _ _ hv).1.symm.trans hq.1)) b2
        exact inv_upd (p' := { p with s := t }) hU h h1 rfl hE' h.psort (BMap.sorted_insert h.isort _ _) h.ssort a1 g1 c1
          (by rw [e4]; exact fun e he => he) (by rw [e4]; exact g2) (by rw [e4]; exact fun e he => he)
  | post i p o rest h1 h2 h3 =>
    have hE := h.each i p h1
    obtain ⟨r, done, e1, e2, e3, e4⟩ := hE.run
    have hids : p.job.c.ids = ids := by
      obtain ⟨a, plan, hb⟩ := hE.allowed.backup
      rw [hb.job.1]; rfl
    have ho : ∃ sn, o = .putSnap sn ∧ S sn := by
      have hmem : o ∈ p.job.posts := by rw [e1, h3]; simp
      rcases posts_one hE.allowed hE.healthy with g | ⟨sn, g, hsn⟩
      · rw [g] at hmem; cases hmem
      · rw [g, List.mem_singleton] at hmem
        exact ⟨sn, hmem, hsn⟩
    obtain ⟨sn, rfl, hsn⟩ := ho
    have hE' : Each C cut ids cores U X S { p with left := rest } (applyPost ids (alone i) (.putSnap sn)) :=
      ⟨hE.allowed, hE.healthy, hE.known, r, done ++ [.putSnap sn], by rw [e1, h3]; simp, e2, fun _ => h2,
        by rw [e4, List.foldl_append]; rfl⟩
    refine ⟨Function.update alone i (applyPost ids (alone i) (.putSnap sn)), ?_⟩
    have hf := hE.facts hU
    obtain ⟨a1, a2⟩ := self Repo.packs i p h1 h.packs
    obtain ⟨b1, b2⟩ := self Repo.indexes i p h1 h.indexes
    obtain ⟨c1, c2⟩ := self Repo.snapshots i p h1 h.snaps
    obtain ⟨g1, g2⟩ := put_both (k := ids.snapId sn) (v := sn) h.ssort hf.healthy.snapshots_sorted
      (fun v hv => hU.snaps _ _ (hkn.snaps _ _ hv).2 hsn (hkn.snaps _ _ hv).1.symm)
      (fun v hv => hU.snaps _ _ (hf.known.snaps _ _ hv).2 hsn (hf.known.snaps _ _ hv).1.symm) c2
    rw [hids]
    exact inv_upd (p' := { p with left := rest }) hU h h1 rfl hE' h.psort h.isort (BMap.sorted_insert h.ssort _ _) a1 b1 g1
      (fun e he => he) (fun e he => he) g2

theorem inv (hU : Apart ids U X S) (hH : Healthy C ids R0) (hK : Known ids U X S R0) {m : Shared ι Id}
    (h : Shared.Reachable (Allowed C cut ids cores U X S) R0 m) (hd : Disjoint m) :
    ∃ alone, Inv C cut ids cores U X S R0 m alone := by
  induction h with
  | refl =>
    exact ⟨fun _ => R0, by simp, hH.packs_sorted, hH.indexes_sorted, hH.snapshots_sorted, by simp, by simp, by simp,
      by simp, by simp⟩
  | tail _ hs ih =>
    obtain ⟨alone, hi⟩ := ih (disjoint_back hs hd)
    exact inv_step hU hH hK hi hd hs

/-- Any number of processes back up to one repository, each starting when it likes and taking its steps
when it likes, or never again. As long as no two of them add the same blob, the repository is in good
order at every instant: every snapshot in it can be read. -/
theorem always_healthy_partial (hU : Apart ids U X S) (hH : Healthy C ids R0) (hK : Known ids U X S R0)
    {m : Shared ι Id} (h : Shared.Reachable (Allowed C cut ids cores U X S) R0 m) (hd : Disjoint m) :
    Healthy C ids m.repo ∧ (∀ b, Has C R0 b → Has C m.repo b) ∧ ∀ e ∈ R0.snapshots, e ∈ m.repo.snapshots := by
  obtain ⟨alone, hi⟩ := inv hU hH hK h hd
  exact ⟨hi.healthy hU hH hK hd, hi.has0 hU, fun e he => (hi.snaps e).mpr (.inl he)⟩

/-- And each of them that has finished has a snapshot there, if it makes one, of what it was to back up. -/
theorem finished_holds_partial (hU : Apart ids U X S) (hH : Healthy C ids R0) (hK : Known ids U X S R0)
    {m : Shared ι Id} (h : Shared.Reachable (Allowed C cut ids cores U X S) R0 m) (hd : Disjoint m)
    {i : ι} {p : Proc Id} (hi : m.proc i = some p) (hf : p.finished) {a : BackupArgs} {plan : Plan Id}
    (hb : IsBackup C cut ids cores p.job a plan) {sn : Snapshot Id} (hsn : plan.post = .ok [.putSnap sn]) :
    (ids.snapId sn, sn) ∈ m.repo.snapshots ∧ Holds C m.repo sn.tree (arrange (keep a.filter a.pathOf a.fs)) := by
  obtain ⟨alone, hI⟩ := inv hU hH hK h hd
  have hE := hI.each i p hi
  obtain ⟨r, done, e1, e2, e3, e4⟩ := hE.run
  obtain ⟨src, snaps, hB, hN, hp⟩ := hb.ok hE.healthy
  obtain ⟨hc, hm, hpo⟩ := hb.job
  rw [hf.2, List.append_nil] at e1
  have hfin : Finished (C13.cfg ids cores a plan) p.job.w plan.main plan.posts ⟨alone i, p.s.world.cwd⟩ := by
    have hcfg : C13.cfg ids cores a plan = p.job.c := by rw [hc]; simp [C13.cfg, liveCfg, hb.live]
    have := Finished.mk (c := p.job.c) (post := p.job.posts) (p.s.on r) e2 hf.1
    rw [hcfg, ← hm, ← hpo, e4, ← e1]
    rw [hc] at this ⊢
    exact this
  obtain ⟨g1, _, g2, _⟩ := C20.snapshot_holds_partial _ _ hB hN hp sn hsn hfin
  exact ⟨(hI.snaps _).mpr (.inr ⟨i, p, hi, g1⟩), has_mono_holds (hI.has hU hi) g2⟩

end

/-! ## New data in common -/

/-- If two packs that live indexes list have a blob in common, nothing that needs to know where blobs are
can open the repository, in whatever order the indexes are read (`src/index.rs:262-306`). -/
theorem twice_refused {R : Repo Id} (hs : BMap.Sorted R.indexes)
    (hone : ∀ p m m', Listed R.indexes p m → Listed R.indexes p m' → m = m') {p p' : Id} {m m' : Manifest Id}
    {e e' : Entry Id} (h : Listed R.indexes p m) (h' : Listed R.indexes p' m') (he : e ∈ m) (he' : e' ∈ m')
    (hid : e.id = e'.id) (hne : p ≠ p') (files : List (Id × Index Id)) (hp : files.Perm R.indexes) (x : Index Id)
    (hx : Index.buildMaster (files.map fun e => (e.1, .ok e.2)) = .ok x) :
    (¬ ∃ t, Index.blobToPack x = .ok t) ∧ (¬ ∃ t, Index.blobIds x = .ok t) ∧ ¬ ∃ t, Index.blobToSize x = .ok t := by
  have hn : (files.map Prod.fst).Nodup := ((hp.map Prod.fst).nodup_iff).mpr hs.nodup
  have hmem : ∀ q mf, Listed R.indexes q mf → (q, mf) ∈ x.packs := by
    intro q mf hl
    refine BMap.mem_of_get? ((C17.packs_exact files hn x hx ?_ q mf).mpr ((listed_perm hp q mf).mpr hl))
    intro q m1 m2 h1 h2
    exact hone q m1 m2 ((listed_perm hp _ _).mp h1) ((listed_perm hp _ _).mp h2)
  have hdup : ¬ (blobsListed x.packs).Nodup := by
    intro hnd
    obtain ⟨t, ht⟩ := (C18.refused_iff x).1.mpr hnd
    have h1 := (C18.lookup_iff x t ht e.id p).mpr ⟨m, e, hmem p m h, he, rfl⟩
    have h2 := (C18.lookup_iff x t ht e.id p').mpr ⟨m', e', hmem p' m' h', he', hid.symm⟩
    rw [h1] at h2
    exact hne (Option.some.inj h2)
  exact ⟨fun ht => hdup ((C18.refused_iff x).1.mp ht), fun ht => hdup ((C18.refused_iff x).2.1.mp ht),
    fun ht => hdup ((C18.refused_iff x).2.2.mp ht)⟩

/-- The empty repository. -/
def none_ : Repo ObjectId := ⟨[], [], []⟩

/-- A directory with the file of `C27.args1` and another. -/
def args2 : BackupArgs := { C27.args1 with
  fs := .leaf [97] (Demo.fileMd 3 5) (.file [1, 2, 3]) <| .leaf [98] (Demo.fileMd 1 6) (.file [9]) .nil
  now := 1500 }

/-- A directory that has nothing in common with that of `C27.args1`. -/
def args3 : BackupArgs := { C27.args1 with
  fs := .leaf [122] (Demo.fileMd 2 5) (.file [7, 7]) .nil
  now := 1500 }

def planFor (a : BackupArgs) : Plan ObjectId :=
  Demo.planOf (backupPlan Demo.codec Demo.cut Demo.world0 Demo.src0 [] a)

def jobFor (a : BackupArgs) : Job ObjectId :=
  ⟨liveCfg C27.fullIds 4 (planFor a).start, Demo.world0, (planFor a).main, (planFor a).posts⟩

/-- What is to be checked of a backup to the empty repository. -/
structure Good (a : BackupArgs) : Prop where
  plan : Demo.isOk (backupPlan Demo.codec Demo.cut Demo.world0 Demo.src0 [] a) = true
  fits : Fits (keep a.filter a.pathOf a.fs)
  few : (keep a.filter a.pathOf a.fs).names.length < 2 ^ 64
  sorted : SubsSorted a.fs
  live : a.dryRun = false
  blobs : ∀ b ∈ emptyBlob Demo.codec :: offered Demo.codec Demo.cut Demo.src0 [] a,
    ∀ b' ∈ emptyBlob Demo.codec :: offered Demo.codec Demo.cut Demo.src0 [] a,
    Demo.codec.hash b.data = Demo.codec.hash b'.data → b.data = b'.data ∧ b.kind = b'.kind
  start : (planFor a).start = Index.empty

/-- The packs of two backups, and the entries and snapshots. -/
def packs2 (a b : BackupArgs) : List (Pack ObjectId) :=
  arrangements (sends (planFor a).main) ++ arrangements (sends (planFor b).main)

def entries2 (a b : BackupArgs) : BMap ObjectId (Manifest ObjectId) := entriesOf C27.fullIds (packs2 a b)

def snapsOf (l : List (Post ObjectId)) : List (Snapshot ObjectId) :=
  l.filterMap fun o => match o with | .putSnap s => some s | _ => none

def U (a b : BackupArgs) (bs : Pack ObjectId) : Prop := bs ∈ packs2 a b
def X (a b : BackupArgs) (x : Index ObjectId) : Prop := x.supersedes = [] ∧ x.packs.Sublist (entries2 a b)
def S (a b : BackupArgs) (s : Snapshot ObjectId) : Prop := s ∈ snapsOf ((planFor a).posts ++ (planFor b).posts)

theorem good_allowed {a b c : BackupArgs} (h : Good c) (hc : c = a ∨ c = b)
    (hE : ∀ bs ∈ packs2 a b, (C27.fullIds.packId (Pack.manifestOf bs), Pack.manifestOf bs) ∈ entries2 a b)
    (hinj : ∀ x y, U a b x → U a b y →
      C27.fullIds.packId (Pack.manifestOf x) = C27.fullIds.packId (Pack.manifestOf y) → x = y) :
    IsBackup Demo.codec Demo.cut C27.fullIds 4 (jobFor c) c (planFor c) ∧
    Allowed Demo.codec Demo.cut C27.fullIds 4 (U a b) (X a b) (S a b) (jobFor c) := by
  have hin : ∀ bs ∈ arrangements (sends (planFor c).main), bs ∈ packs2 a b := by
    intro bs hb
    rcases hc with rfl | rfl
    · exact List.mem_append_left _ hb
    · exact List.mem_append_right _ hb
  have hib : IsBackup Demo.codec Demo.cut C27.fullIds 4 (jobFor c) c (planFor c) := by
    refine ⟨fun _ => ⟨Demo.src0, [], ⟨Demo.cut_contract, Demo.healthy_empty .., Demo.leftover_clean
      (Demo.healthy_empty ..), Demo.opens0, by simp, h.fits, h.few, h.sorted, by intro p d0 h; cases h⟩,
      ⟨?_, ?_, ?_⟩, Demo.planOf_eq h.plan⟩, h.live, (by rw [h.start]; rfl), rfl, rfl, rfl⟩
    · have hs : ∀ b, ¬ Stored Demo.world0 b := by
        rintro b ⟨p, bs, (⟨⟨i, x, ⟨h, _⟩, _⟩, _⟩ | ⟨x, h, _⟩), _⟩ <;> cases h
      have hm : ∀ b, (Stored Demo.world0 b ∨ b ∈ offered Demo.codec Demo.cut Demo.src0 [] c) →
          b ∈ emptyBlob Demo.codec :: offered Demo.codec Demo.cut Demo.src0 [] c := by
        rintro b (h | h)
        · exact absurd h (hs b)
        · exact List.mem_cons_of_mem _ h
      exact ⟨fun b b' g g' he => (h.blobs b (hm b g) b' (g'.elim (hm b') (fun e => e ▸ List.mem_cons_self)) he).1,
        fun b b' g g' he => (h.blobs b (hm b g) b' (hm b' g') (by rw [he])).2⟩
    · have hm : ∀ x, Involved Demo.world0 (planFor c).main x → U a b x := by
        rintro x (⟨p, h⟩ | ⟨p, h⟩ | h)
        · cases h
        · cases h
        · exact hin _ (formed_arrangement h)
      exact fun x y hx hy => hinj x y (hm x hx) (hm y hy)
    · intro x _
      exact ⟨(by rintro ⟨j, y, h, _⟩; cases h), (by intro y h; cases h), by
        show _ ∉ (planFor c).start.supersedes; rw [h.start]; simp [Index.empty]⟩
  refine ⟨hib, ⟨c, planFor c, hib⟩, ?_, ?_, ?_⟩
  · rintro bs (⟨p, hp⟩ | hf)
    · cases hp
    · exact hin _ (formed_arrangement hf)
  · intro x hx
    exact writes_sublist h.start hx (BMap.sorted_ofList _) (fun bs hb => hE bs (hin bs hb))
  · intro s hs
    unfold S
    refine List.mem_filterMap.mpr ⟨.putSnap s, ?_, rfl⟩
    rcases hc with rfl | rfl
    · exact List.mem_append_left _ hs
    · exact List.mem_append_right _ hs

/-- What is to be checked of two. -/
structure Pair (a b : BackupArgs) : Prop where
  first : Good a
  second : Good b
  entries : ∀ bs ∈ packs2 a b, (C27.fullIds.packId (Pack.manifestOf bs), Pack.manifestOf bs) ∈ entries2 a b
  packs : ∀ x ∈ packs2 a b, ∀ y ∈ packs2 a b,
    C27.fullIds.packId (Pack.manifestOf x) = C27.fullIds.packId (Pack.manifestOf y) → x = y
  indexes : ((entries2 a b).sublists'.map fun ps => C27.fullIds.indexId ⟨[], ps⟩).Nodup
  snaps : ∀ s ∈ snapsOf ((planFor a).posts ++ (planFor b).posts),
    ∀ t ∈ snapsOf ((planFor a).posts ++ (planFor b).posts), C27.fullIds.snapId s = C27.fullIds.snapId t → s = t
  canA : C27.canEnd (planFor a) none_ = true
  canB : C27.canEnd (planFor b) (C27.endedAt (planFor a) none_) = true

theorem Pair.apart {a b : BackupArgs} (h : Pair a b) : Apart C27.fullIds (U a b) (X a b) (S a b) := by
  refine ⟨fun x y hx hy => h.packs x hx y hy, ?_, fun x y hx hy => h.snaps x hx y hy⟩
  rintro ⟨xs, xp⟩ ⟨ys, yp⟩ ⟨h1, h2⟩ ⟨h3, h4⟩ he
  simp only at h1 h2 h3 h4
  subst h1 h3
  have := List.inj_on_of_nodup_map h.indexes (List.mem_sublists'.mpr h2) (List.mem_sublists'.mpr h4) he
  rw [this]

/-- Both start at once; one runs to its end, then the other. -/
theorem Pair.run {a b : BackupArgs} (h : Pair a b) : ∃ (m : Shared Bool ObjectId) (p q : Proc ObjectId),
    Shared.Reachable (Allowed Demo.codec Demo.cut C27.fullIds 4 (U a b) (X a b) (S a b)) none_ m ∧
    m.proc true = some p ∧ m.proc false = some q ∧ p.finished ∧ q.finished ∧ p.job = jobFor a ∧ q.job = jobFor b ∧
    m.repo = C27.endedAt (planFor b) (C27.endedAt (planFor a) none_) := by
  have hA := (good_allowed h.first (.inl rfl) h.entries h.apart.packs).2
  have hB := (good_allowed h.second (.inr rfl) h.entries h.apart.packs).2
  let pa : Proc ObjectId := ⟨jobFor a, init (jobFor a).c (jobFor a).w (jobFor a).main, (jobFor a).posts⟩
  let pb : Proc ObjectId := ⟨jobFor b, init (jobFor b).c (jobFor b).w (jobFor b).main, (jobFor b).posts⟩
  let m1 : Shared Bool ObjectId := ⟨none_, Function.update (fun _ => none) true (some pa)⟩
  let m2 : Shared Bool ObjectId := ⟨none_, Function.update m1.proc false (some pb)⟩
  have s1 : Shared.Step (Allowed Demo.codec Demo.cut C27.fullIds 4 (U a b) (X a b) (S a b)) ⟨none_, fun _ => none⟩ m1 :=
    Shared.Step.start ⟨none_, fun _ => none⟩ true (jobFor a) rfl rfl hA
  have s2 : Shared.Step (Allowed Demo.codec Demo.cut C27.fullIds 4 (U a b) (X a b) (S a b)) m1 m2 :=
    Shared.Step.start m1 false (jobFor b) rfl rfl hB
  obtain ⟨p, p1, p2, p3⟩ := lift_finished (may := Allowed Demo.codec Demo.cut C27.fullIds 4 (U a b) (X a b) (S a b))
    (m := m2) (i := true) (j := jobFor a) (w' := Demo.clean (C27.endedAt (planFor a) none_)) rfl (C27.ends h.canA)
  obtain ⟨q, q1, q2, q3⟩ := lift_finished (may := Allowed Demo.codec Demo.cut C27.fullIds 4 (U a b) (X a b) (S a b))
    (m := ⟨C27.endedAt (planFor a) none_, Function.update m2.proc true (some p)⟩) (i := false) (j := jobFor b)
    (w' := Demo.clean (C27.endedAt (planFor b) (C27.endedAt (planFor a) none_))) rfl (C27.ends h.canB)
  exact ⟨_, p, q, ((Relation.ReflTransGen.single s1).tail s2).trans (p3.trans q3), rfl, rfl, p2, q2, p1, q1, rfl⟩

theorem good1 : Good C27.args1 where
  plan := by decide +kernel
  fits := ⟨by decide, Demo.okFileMd _ _ (by decide) (by decide), by simp [LeafFits], trivial⟩
  few := by decide
  sorted := trivial
  live := rfl
  blobs := by decide +kernel
  start := by decide +kernel

theorem good2 : Good args2 where
  plan := by decide +kernel
  fits := ⟨by decide, Demo.okFileMd _ _ (by decide) (by decide), by simp [LeafFits],
    by decide, Demo.okFileMd _ _ (by decide) (by decide), by simp [LeafFits], trivial⟩
  few := by decide
  sorted := trivial
  live := rfl
  blobs := by decide +kernel
  start := by decide +kernel

theorem good3 : Good args3 where
  plan := by decide +kernel
  fits := ⟨by decide, Demo.okFileMd _ _ (by decide) (by decide), by simp [LeafFits], trivial⟩
  few := by decide
  sorted := trivial
  live := rfl
  blobs := by decide +kernel
  start := by decide +kernel

theorem pair12 : Pair C27.args1 args2 where
  first := good1
  second := good2
  entries := by decide +kernel
  packs := by decide +kernel
  indexes := by decide +kernel
  snaps := by decide +kernel
  canA := by decide +kernel
  canB := by decide +kernel

theorem pair13 : Pair C27.args1 args3 where
  first := good1
  second := good3
  entries := by decide +kernel
  packs := by decide +kernel
  indexes := by decide +kernel
  snaps := by decide +kernel
  canA := by decide +kernel
  canB := by decide +kernel

/-- What two backups leave, of which one ends before the other. -/
def both (a b : BackupArgs) : Repo ObjectId := C27.endedAt (planFor b) (C27.endedAt (planFor a) none_)

theorem known_none (U : Pack ObjectId → Prop) (X : Index ObjectId → Prop) (S : Snapshot ObjectId → Prop) :
    Known C27.fullIds U X S none_ :=
  ⟨fun _ _ h => (by cases h), fun _ _ h => (by cases h), fun _ _ h => (by cases h)⟩

/-- Nothing here supersedes anything, each pack has one manifest, and two packs have a blob in common. -/
theorem shared12 : (∀ e ∈ (both C27.args1 args2).indexes, e.2.supersedes = []) ∧
    (∀ e ∈ (both C27.args1 args2).indexes, ∀ e' ∈ (both C27.args1 args2).indexes, ∀ q ∈ e.2.packs, ∀ q' ∈ e'.2.packs,
      q.1 = q'.1 → q.2 = q'.2) ∧
    ∃ e ∈ (both C27.args1 args2).indexes, ∃ e' ∈ (both C27.args1 args2).indexes, ∃ q ∈ e.2.packs, ∃ q' ∈ e'.2.packs,
      q.1 ≠ q'.1 ∧ ∃ x ∈ q.2, ∃ x' ∈ q'.2, x.id = x'.id := by decide +kernel

theorem sorted12 : BMap.Sorted (both C27.args1 args2).indexes := by
  unfold BMap.Sorted
  decide +kernel

/-- Two directories with a file in common are backed up at the same time to an empty repository. No two objects
have one ID by accident; both backups finish and store their snapshots. The file is in two packs, so no
command that needs to know where blobs are can open the repository any more. -/
theorem common_data_refused : ∃ (m : Shared Bool ObjectId) (p q : Proc ObjectId),
    Healthy Demo.codec C27.fullIds none_ ∧
    Apart C27.fullIds (U C27.args1 args2) (X C27.args1 args2) (S C27.args1 args2) ∧
    Known C27.fullIds (U C27.args1 args2) (X C27.args1 args2) (S C27.args1 args2) none_ ∧
    Shared.Reachable (Allowed Demo.codec Demo.cut C27.fullIds 4 (U C27.args1 args2) (X C27.args1 args2)
      (S C27.args1 args2)) none_ m ∧
    m.proc true = some p ∧ m.proc false = some q ∧ p.finished ∧ q.finished ∧
    IsBackup Demo.codec Demo.cut C27.fullIds 4 p.job C27.args1 (planFor C27.args1) ∧
    IsBackup Demo.codec Demo.cut C27.fullIds 4 q.job args2 (planFor args2) ∧
    m.repo.snapshots.length = 2 ∧ ∀ src, ¬ Opens m.repo src := by
  obtain ⟨m, p, q, h1, h2, h3, h4, h5, h6, h7, h8⟩ := pair12.run
  refine ⟨m, p, q, Demo.healthy_empty .., pair12.apart, known_none .., h1, h2, h3, h4, h5, ?_, ?_, ?_, ?_⟩
  · rw [h6]; exact (good_allowed pair12.first (.inl rfl) pair12.entries pair12.apart.packs).1
  · rw [h7]; exact (good_allowed pair12.second (.inr rfl) pair12.entries pair12.apart.packs).1
  · rw [h8]; decide +kernel
  · intro src ho
    have hr : m.repo = both C27.args1 args2 := h8
    rw [hr] at ho
    obtain ⟨g1, g2, ⟨i, x⟩, g3, ⟨i', x'⟩, g4, ⟨k, mf⟩, g5, ⟨k', mf'⟩, g6, g7, e, g8, e', g9, g10⟩ := shared12
    have hsup : ∀ k, ¬ Superseded (both C27.args1 args2).indexes k := by
      rintro k ⟨j, y, hy, hk⟩
      rw [g1 _ hy] at hk
      cases hk
    obtain ⟨files, hp, hx⟩ := ho.master
    refine (twice_refused sorted12 ?_ ⟨i, x, ⟨g3, hsup i⟩, g5⟩ ⟨i', x', ⟨g4, hsup i'⟩, g6⟩ g8 g9 g10 g7 files hp
      src.index hx).1 ⟨_, ho.blobMap⟩
    rintro k m1 m2 ⟨j1, y1, ⟨a1, _⟩, b1⟩ ⟨j2, y2, ⟨a2, _⟩, b2⟩
    exact g2 _ a1 _ a2 _ b1 _ b2 rfl

theorem apart13 : ∀ x ∈ adds (planFor C27.args1).start (planFor C27.args1).main,
    x ∉ adds (planFor args3).start (planFor args3).main := by decide +kernel

/-- Whether a plan ends by storing a snapshot. -/
def storesOne (r : Res (List (Post ObjectId))) : Bool :=
  match r with
  | .ok [.putSnap _] => true
  | _ => false

theorem post_of {r : Res (List (Post ObjectId))} (h : storesOne r = true) : ∃ sn, r = .ok [.putSnap sn] := by
  unfold storesOne at h
  split at h
  · exact ⟨_, rfl⟩
  · cases h

/-- Two directories with nothing in common: what the theorems above say of them. -/
example : ∃ (m : Shared Bool ObjectId) (p q : Proc ObjectId),
    Shared.Reachable (Allowed Demo.codec Demo.cut C27.fullIds 4 (U C27.args1 args3) (X C27.args1 args3)
      (S C27.args1 args3)) none_ m ∧ Disjoint m ∧
    m.proc true = some p ∧ m.proc false = some q ∧ p.finished ∧ q.finished ∧ Healthy Demo.codec C27.fullIds m.repo ∧
    ∃ sn sn', (C27.fullIds.snapId sn, sn) ∈ m.repo.snapshots ∧ (C27.fullIds.snapId sn', sn') ∈ m.repo.snapshots ∧
      Holds Demo.codec m.repo sn.tree (arrange (keep C27.args1.filter C27.args1.pathOf C27.args1.fs)) ∧
      Holds Demo.codec m.repo sn'.tree (arrange (keep args3.filter args3.pathOf args3.fs)) := by
  obtain ⟨m, p, q, h1, h2, h3, h4, h5, h6, h7, h8⟩ := pair13.run
  have hd : Disjoint m := by
    intro i k r s hi hk hne
    cases i <;> cases k <;> first | exact absurd rfl hne | skip
    · rw [h3] at hi; rw [h2] at hk
      cases hi; cases hk
      rw [h6, h7]
      exact fun x hx hx' => apart13 x hx' hx
    · rw [h2] at hi; rw [h3] at hk
      cases hi; cases hk
      rw [h6, h7]
      exact apart13
  have hH : Healthy Demo.codec C27.fullIds none_ := Demo.healthy_empty ..
  have hK := known_none (U C27.args1 args3) (X C27.args1 args3) (S C27.args1 args3)
  have b1 : IsBackup Demo.codec Demo.cut C27.fullIds 4 p.job C27.args1 (planFor C27.args1) := by
    rw [h6]; exact (good_allowed pair13.first (.inl rfl) pair13.entries pair13.apart.packs).1
  have b2 : IsBackup Demo.codec Demo.cut C27.fullIds 4 q.job args3 (planFor args3) := by
    rw [h7]; exact (good_allowed pair13.second (.inr rfl) pair13.entries pair13.apart.packs).1
  have e1 : ∃ sn, (planFor C27.args1).post = .ok [.putSnap sn] := post_of (by decide +kernel)
  have e2 : ∃ sn, (planFor args3).post = .ok [.putSnap sn] := post_of (by decide +kernel)
  obtain ⟨sn, e1⟩ := e1
  obtain ⟨sn', e2⟩ := e2
  have f1 := finished_holds_partial pair13.apart hH hK h1 hd h2 h4 b1 e1
  have f2 := finished_holds_partial pair13.apart hH hK h1 hd h3 h5 b2 e2
  exact ⟨m, p, q, h1, hd, h2, h3, h4, h5, (always_healthy_partial pair13.apart hH hK h1 hd).1, sn, sn',
    f1.1, f2.1, f1.2, f2.2⟩

end Backpak.C65
