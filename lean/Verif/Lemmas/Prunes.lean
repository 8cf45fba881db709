import Verif.Lemmas.Beside
import Verif.Props.C66

/-!
# Prunes at the same time

Any number of processes prune one repository. Until one of them has stored its index nothing is superseded or removed;
from then on only the new indexes count. What one prune removes no other keeps, for all go by the same indexes and
snapshots.
-/

namespace Backpak.Prunes

open Spec Pipeline Beside
open C65 (Apart Known mem_put listed_mono)
open C66 (IsPrune)

variable {Id : Type} [LinearOrder Id]

/-- A listed pack with a blob that no snapshot needs. -/
def Drop (C : Codec Id) (R : Repo Id) (q : Id) : Prop :=
  ∃ mf e, Listed R.indexes q mf ∧ e ∈ mf ∧ ¬ Needed C R e.id

/-- What is known of a prune. -/
structure Facts (C : Codec Id) (ids : Ids Id) (cores : Nat) (U : Pack Id → Prop) (X : Index Id → Prop)
    (S : Snapshot Id → Prop) (j : Job Id) : Prop where
  prunes : Beside.Prunes C ids cores U X j
  healthy : Healthy C ids j.w.repo
  known : Known ids U X S j.w.repo
  drops : ∀ q, Post.rmPack q ∈ j.posts → Drop C j.w.repo q
  needs : ∀ i ∈ gives j, Needed C j.w.repo i
  old : ∀ b, (b ∈ sends j.main ∨ ∃ p bs, StartPack (own ids cores j) p bs ∧ b ∈ bs) → Has C j.w.repo b ∨ b = emptyBlob C

/-- What a prune saw of the repository was as at first, but for packs that no index lists. -/
structure View (R0 : Repo Id) (j : Job Id) : Prop where
  indexes : j.w.repo.indexes = R0.indexes
  snaps : j.w.repo.snapshots = R0.snapshots
  packs : ∀ e ∈ R0.packs, e ∈ j.w.repo.packs

variable {C : Codec Id} {env : CacheEnv Id} {ids : Ids Id} {cores : Nat} {U : Pack Id → Prop} {X : Index Id → Prop}
  {S : Snapshot Id → Prop} {R0 : Repo Id} {j : Job Id} {plan : Plan Id}

theorem reaches_mono {R R' : Repo Id} (h : ∀ b, Has C R b → Has C R' b) {a b : Id}
    (hr : Reaches (TreeAt C R) a b) : Reaches (TreeAt C R') a b := by
  induction hr with
  | refl => exact .refl
  | step h1 h2 _ ih => exact .step (has_mono_tree h h1) h2 ih

theorem needed_mono {R R' : Repo Id} (h : ∀ b, Has C R b → Has C R' b) (hs : R'.snapshots = R.snapshots) {i : Id}
    (hn : Needed C R i) : Needed C R' i := by
  obtain ⟨k, s, h1, u, t, h2, h3, h4⟩ := hn
  exact ⟨k, s, by rw [hs]; exact h1, u, t, reaches_mono h h2, has_mono_tree h h3, h4⟩

theorem View.has (hv : View R0 j) (hH : Healthy C ids R0) (hw : Healthy C ids j.w.repo) (b : Blob Id) :
    Has C j.w.repo b ↔ Has C R0 b := by
  constructor
  · rintro ⟨h1, p, bs, h2, h3, h4⟩
    rw [hv.indexes] at h2
    obtain ⟨cs, h5, _⟩ := hH.present _ _ h2
    have := hw.sound.pack_one (hv.packs _ h5) h3
    subst this
    exact ⟨h1, p, cs, h2, h5, h4⟩
  · rintro ⟨h1, p, bs, h2, h3, h4⟩
    exact ⟨h1, p, bs, by rw [hv.indexes]; exact h2, hv.packs _ h3, h4⟩

theorem View.needed (hv : View R0 j) (hH : Healthy C ids R0) (hw : Healthy C ids j.w.repo) (i : Id) :
    Needed C j.w.repo i ↔ Needed C R0 i :=
  ⟨needed_mono (fun b => (hv.has hH hw b).mp) hv.snaps.symm, needed_mono (fun b => (hv.has hH hw b).mpr) hv.snaps⟩

theorem View.drop (hv : View R0 j) (hH : Healthy C ids R0) (hw : Healthy C ids j.w.repo) {q : Id}
    (h : Drop C j.w.repo q) : Drop C R0 q := by
  obtain ⟨mf, e, h1, h2, h3⟩ := h
  rw [hv.indexes] at h1
  exact ⟨mf, e, h1, h2, fun h4 => h3 ((hv.needed hH hw _).mpr h4)⟩

theorem IsPrune.facts (h : IsPrune C env ids cores j plan) (hK : Known ids U X S j.w.repo)
    (hp : Beside.Prunes C ids cores U X j) : Facts C ids cores U X S j := by
  obtain ⟨src, snaps, hP, hN, hpl⟩ := h.ok
  obtain ⟨hc, hmn, hpo⟩ := h.job
  obtain ⟨c, reach, h1⟩ := pruning hP hN hpl
  have hstart : j.c.start = plan.start := by rw [hc]; rfl
  have hown : own ids cores j = c := by rw [h1.cfg]; unfold own; rw [hstart, hmn]
  refine ⟨hp, hP.healthy, hK, ?_, ?_, ?_⟩
  · intro q hq
    rw [hpo, h1.posts, prunePosts, List.mem_append, List.mem_map, List.mem_map] at hq
    rcases hq with ⟨_, _, h2⟩ | ⟨q', h2, h3⟩
    · cases h2
    · cases h3
      obtain ⟨⟨q, mf⟩, h4, rfl⟩ := List.mem_map.mp h2
      obtain ⟨h5, h6⟩ := List.mem_filter.mp h4
      simp only [Bool.not_eq_true', reusable, List.all_eq_false] at h6
      obtain ⟨e, he, hne⟩ := h6
      simp only [List.contains_iff_mem] at hne
      exact ⟨mf, e, (opens_mem hP.healthy.sound hP.opens q mf).mp h5, he, fun h7 => hne ((h1.exact _).mpr h7)⟩
  · intro i hi
    rcases List.mem_append.mp hi with hi | hi
    · obtain ⟨⟨p, mf⟩, h2, h3⟩ := List.mem_flatMap.mp hi
      obtain ⟨e, he, rfl⟩ := List.mem_map.mp h3
      have h2' : (p, mf) ∈ (own ids cores j).start.packs := h2
      rw [hown] at h2'
      obtain ⟨bs, hg, rfl⟩ := h1.run.startGood _ _ h2'
      obtain ⟨b, hb, rfl⟩ := List.mem_map.mp he
      exact (h1.kept _ _ b ⟨h2', hg⟩ hb).1
    · obtain ⟨b, hb, rfl⟩ := List.mem_map.mp hi
      rw [hmn] at hb
      exact (h1.needed b hb).1
  · intro b hb
    rw [hown, hmn] at hb
    exact (h1.old hb).2

/-! ## What there is at every instant -/

variable {ι : Type} [DecidableEq ι]

/-- A process, and what the repository would hold had it run alone and removed nothing. -/
structure Each (C : Codec Id) (ids : Ids Id) (cores : Nat) (U : Pack Id → Prop) (X : Index Id → Prop)
    (S : Snapshot Id → Prop) (R0 R : Repo Id) (p : Proc Id) (A : Repo Id) : Prop where
  facts : Facts C ids cores U X S p.job
  view : View R0 p.job
  run : Reachable p.job.c p.job.w p.job.main (p.s.on A)
  left : ∀ o ∈ p.left, o ∈ p.job.posts
  packs : ∀ e ∈ A.packs, ¬ Drop C R0 e.1 → e ∈ R.packs
  indexes : ∀ e ∈ A.indexes, e ∈ R0.indexes ∨ e ∈ R.indexes

structure Inv (C : Codec Id) (ids : Ids Id) (cores : Nat) (U : Pack Id → Prop) (X : Index Id → Prop)
    (S : Snapshot Id → Prop) (R0 : Repo Id) (m : Shared ι Id) (alone : ι → Repo Id) : Prop where
  known : Known ids U X S m.repo
  psort : BMap.Sorted m.repo.packs
  isort : BMap.Sorted m.repo.indexes
  snaps : m.repo.snapshots = R0.snapshots
  lists : ∀ i x, (i, x) ∈ m.repo.indexes → BMap.Sorted x.packs
  each : ∀ k p, m.proc k = some p → Each C ids cores U X S R0 m.repo p (alone k)
  origin : ∀ e ∈ m.repo.indexes, e ∈ R0.indexes ∨ ∃ k p, m.proc k = some p ∧ e ∈ (alone k).indexes
  early : (∀ k p, m.proc k = some p → (alone k).indexes = R0.indexes) →
    m.repo.indexes = R0.indexes ∧ ∀ e ∈ R0.packs, e ∈ m.repo.packs

/-- An index that a prune has stored. -/
structure New (C : Codec Id) (ids : Ids Id) (cores : Nat) (R0 : Repo Id) (p : Proc Id) (A : Repo Id) (i : Id)
    (x : Index Id) : Prop where
  made : ∃ news, NewIndex (own ids cores p.job) p.job.w.repo A (sends p.job.main) x news
  id : i = ids.indexId x
  fresh : i ∉ BMap.keys R0.indexes
  live : ¬ Superseded R0.indexes i
  sup : x.supersedes = BMap.keys R0.indexes
  needs : ∀ q mf e, (q, mf) ∈ x.packs → e ∈ mf → Needed C R0 e.id

variable {m : Shared ι Id} {alone : ι → Repo Id} {R A : Repo Id} {p : Proc Id}

omit [DecidableEq ι] in
theorem Each.new (h : Each C ids cores U X S R0 R p A) (hH : Healthy C ids R0) {x : Index Id} {news : List (Id × Pack Id)}
    (hn : NewIndex (own ids cores p.job) p.job.w.repo A (sends p.job.main) x news) :
    New C ids cores R0 p A (ids.indexId x) x := by
  have h1 := h.facts.prunes.idx x hn.writes
  rw [h.view.indexes] at h1
  refine ⟨⟨_, hn⟩, rfl, h1.1, h1.2, ?_, ?_⟩
  · rw [hn.sup]
    show p.job.c.start.supersedes = _
    rw [h.facts.prunes.sup, h.view.indexes]
  · intro q mf e h2 h3
    exact (h.view.needed hH h.facts.healthy _).mp (h.facts.needs _ (index_ids hn h2 h3))

omit [DecidableEq ι] in
/-- Once the process has stored something as an index. -/
theorem Each.stored (h : Each C ids cores U X S R0 R p A) (hH : Healthy C ids R0) (hne : A.indexes ≠ R0.indexes) :
    ∃ i x, (i, x) ∈ A.indexes ∧ (i, x) ∈ R.indexes ∧ New C ids cores R0 p A i x := by
  have hB := h.facts.prunes.toBase
  rcases (effect hB.run (hB.reach h.run)).idx with h1 | ⟨x, news, hn⟩
  · rw [on_repo, h.view.indexes] at h1
    exact absurd h1 hne
  · rw [on_repo] at hn
    have hN := h.new hH hn
    have hin : (ids.indexId x, x) ∈ A.indexes := by
      rw [hn.put]
      exact (BMap.mem_insert_iff h.facts.healthy.indexes_sorted).mpr (.inl ⟨rfl, rfl⟩)
    refine ⟨_, x, hin, ?_, hN⟩
    exact (h.indexes _ hin).resolve_left (fun h2 => hN.fresh (BMap.mem_keys_of_mem h2))

omit [DecidableEq ι] in
theorem Each.is_new (h : Each C ids cores U X S R0 R p A) (hH : Healthy C ids R0) {i : Id} {x : Index Id}
    (hx : (i, x) ∈ A.indexes) (h0 : (i, x) ∉ R0.indexes) : New C ids cores R0 p A i x := by
  have hB := h.facts.prunes.toBase
  rcases (effect hB.run (hB.reach h.run)).idx with h1 | ⟨y, news, hn⟩
  · rw [on_repo, h.view.indexes] at h1
    rw [h1] at hx
    exact absurd hx h0
  · rw [on_repo] at hn
    rw [hn.put, h.view.indexes] at hx
    rcases BMap.mem_insert_of hx with ⟨rfl, rfl⟩ | hx
    · exact h.new hH hn
    · exact absurd hx h0

omit [DecidableEq ι] in
/-- A process that has joined its threads has stored its index. -/
theorem Each.joined (h : Each C ids cores U X S R0 R p A) (hj : p.s.joined = true) : A.indexes ≠ R0.indexes := by
  have hB := h.facts.prunes.toBase
  obtain ⟨e, h1, h2⟩ := h.facts.prunes.joined _ (hB.reach h.run) hj
  rw [h.view.indexes] at h2
  intro h3
  rw [on_repo, h3] at h1
  exact h2 (BMap.mem_keys_of_mem (k := e.1) (v := e.2) h1)

omit [DecidableEq ι] in
/-- The packs of an index that a prune has stored, and their blobs. -/
theorem New.packs {i : Id} {x : Index Id} (hx : New C ids cores R0 p A i x) (h : Each C ids cores U X S R0 R p A) (hH : Healthy C ids R0) :
    Ledger C (fun q bs => (q, Pack.manifestOf bs) ∈ x.packs ∧ (q, bs) ∈ A.packs) ∧
    (∀ b, (b ∈ sends p.job.main ∨ ∃ q bs, StartPack (own ids cores p.job) q bs ∧ b ∈ bs) →
      ∃ q bs, (q, Pack.manifestOf bs) ∈ x.packs ∧ (q, bs) ∈ A.packs ∧ b ∈ bs) ∧
    (∀ q mf, (q, mf) ∈ x.packs → ∃ bs, (q, bs) ∈ A.packs ∧ (q, bs) ∈ R.packs ∧ Pack.manifestOf bs = mf) ∧
    ∀ q bs b, (q, Pack.manifestOf bs) ∈ x.packs → (q, bs) ∈ A.packs → b ∈ bs → Has C R0 b ∨ b = emptyBlob C := by
  have hB := h.facts.prunes.toBase
  have hE := effect hB.run (hB.reach h.run)
  obtain ⟨news, hn⟩ := hx.made
  have hnm : ∀ q bs, (q, bs) ∈ A.packs → Good (own ids cores p.job) q bs := hE.names
  obtain ⟨h1, h2⟩ := index_packs hB.run.inj hB.ledger hB.fresh hnm hn
  refine ⟨h1, h2, ?_, ?_⟩
  · intro q mf hq
    obtain ⟨bs, h3, rfl⟩ := hn.there q mf hq
    refine ⟨bs, h3, h.packs _ h3 ?_, rfl⟩
    rintro ⟨mf, e, h4, h5, h6⟩
    obtain ⟨cs, h7, rfl⟩ := hH.present _ _ h4
    have h8 : (q, cs) ∈ A.packs := hE.keep _ (h.view.packs _ h7)
    have := Good_unique hB.run.inj (hnm _ _ h3) (hnm _ _ h8)
    subst this
    exact h6 (hx.needs _ _ _ hq h5)
  · intro q bs b h3 h4 h5
    have hb : b ∈ sends p.job.main ∨ ∃ q bs, StartPack (own ids cores p.job) q bs ∧ b ∈ bs := by
      rcases List.mem_append.mp (hn.packs.subset h3) with h6 | h6
      · exact .inr ⟨q, bs, ⟨h6, hnm _ _ h4⟩, h5⟩
      · obtain ⟨⟨q', cs⟩, h7, h8⟩ := List.mem_map.mp h6
        simp only [Prod.mk.injEq] at h8
        obtain ⟨rfl, _⟩ := h8
        have := Good_unique hB.run.inj (hnm _ _ h4) (hn.good _ h7)
        subst this
        exact .inl (hn.blobs.subset (List.mem_flatMap.mpr ⟨_, h7, h5⟩))
    exact (h.facts.old b hb).imp_left ((h.view.has hH h.facts.healthy b).mp)

/-! ## Once an index has been stored -/

omit [DecidableEq ι] in
/-- Each index there is was there at first or is one that a prune has stored. -/
theorem Inv.either (h : Inv C ids cores U X S R0 m alone) (hH : Healthy C ids R0) {i : Id} {x : Index Id}
    (hx : (i, x) ∈ m.repo.indexes) : (i, x) ∈ R0.indexes ∨
      ∃ k p, m.proc k = some p ∧ (i, x) ∈ (alone k).indexes ∧ New C ids cores R0 p (alone k) i x := by
  by_cases h0 : (i, x) ∈ R0.indexes
  · exact .inl h0
  · obtain ⟨k, p, h1, h2⟩ := (h.origin _ hx).resolve_left h0
    exact .inr ⟨k, p, h1, h2, (h.each k p h1).is_new hH h2 h0⟩

omit [DecidableEq ι] in
theorem Inv.not_superseded (h : Inv C ids cores U X S R0 m alone) (hH : Healthy C ids R0) {i : Id}
    (h1 : i ∉ BMap.keys R0.indexes) (h2 : ¬ Superseded R0.indexes i) : ¬ Superseded m.repo.indexes i := by
  rintro ⟨a, z, h3, h4⟩
  rcases h.either hH h3 with h5 | ⟨k, p, _, _, h5⟩
  · exact h2 ⟨a, z, h5, h4⟩
  · rw [h5.sup] at h4
    exact h1 h4

omit [DecidableEq ι] in
/-- What is listed then is listed by an index that a prune has stored. -/
theorem Inv.listed (h : Inv C ids cores U X S R0 m alone) (hH : Healthy C ids R0) {k0 : ι} {p0 : Proc Id}
    (hk : m.proc k0 = some p0) (hne : (alone k0).indexes ≠ R0.indexes) (q : Id) (mf : Manifest Id) :
    Listed m.repo.indexes q mf ↔ ∃ k p i x, m.proc k = some p ∧ (i, x) ∈ m.repo.indexes ∧
      New C ids cores R0 p (alone k) i x ∧ (q, mf) ∈ x.packs := by
  obtain ⟨n, x0, _, h2, h3⟩ := (h.each k0 p0 hk).stored hH hne
  constructor
  · rintro ⟨i, x, ⟨h4, h5⟩, h6⟩
    rcases h.either hH h4 with h7 | ⟨k, p, h7, _, h8⟩
    · refine absurd ⟨n, x0, h2, ?_⟩ h5
      rw [h3.sup]
      exact BMap.mem_keys_of_mem h7
    · exact ⟨k, p, i, x, h7, h4, h8, h6⟩
  · rintro ⟨k, p, i, x, _, h4, h5, h6⟩
    exact ⟨i, x, ⟨h4, h.not_superseded hH h5.fresh h5.live⟩, h6⟩

omit [DecidableEq ι] in
/-- All that is listed then is needed. -/
theorem Inv.lists_needed (h : Inv C ids cores U X S R0 m alone) (hH : Healthy C ids R0) {k0 : ι} {p0 : Proc Id}
    (hk : m.proc k0 = some p0) (hne : (alone k0).indexes ≠ R0.indexes) {q : Id} {mf : Manifest Id} {e : Entry Id}
    (hl : Listed m.repo.indexes q mf) (he : e ∈ mf) : Needed C R0 e.id := by
  obtain ⟨k, p, i, x, _, _, h1, h2⟩ := (h.listed hH hk hne q mf).mp hl
  exact h1.needs _ _ _ h2 he

omit [DecidableEq ι] in
theorem Inv.present (h : Inv C ids cores U X S R0 m alone) (hH : Healthy C ids R0) {q : Id} {mf : Manifest Id}
    (hl : Listed m.repo.indexes q mf) : ∃ bs, (q, bs) ∈ m.repo.packs ∧ Pack.manifestOf bs = mf := by
  by_cases hE : ∀ k p, m.proc k = some p → (alone k).indexes = R0.indexes
  · obtain ⟨h1, h2⟩ := h.early hE
    rw [h1] at hl
    obtain ⟨bs, h3, h4⟩ := hH.present _ _ hl
    exact ⟨bs, h2 _ h3, h4⟩
  · simp only [not_forall] at hE
    obtain ⟨k0, p0, hk, hne⟩ := hE
    obtain ⟨k, p, i, x, h1, _, h2, h3⟩ := (h.listed hH hk hne q mf).mp hl
    obtain ⟨bs, _, h4, h5⟩ := (h2.packs (h.each k p h1) hH).2.2.1 _ _ h3
    exact ⟨bs, h4, h5⟩

omit [DecidableEq ι] in
/-- What can be found could be found at first, but for the empty tree. -/
theorem Inv.old (h : Inv C ids cores U X S R0 m alone) (hH : Healthy C ids R0) {b : Blob Id}
    (hb : Has C m.repo b) : Has C R0 b ∨ b = emptyBlob C := by
  obtain ⟨h1, q, bs, h2, h3, h4⟩ := hb
  by_cases hE : ∀ k p, m.proc k = some p → (alone k).indexes = R0.indexes
  · obtain ⟨h5, h6⟩ := h.early hE
    rw [h5] at h2
    obtain ⟨cs, h7, _⟩ := hH.present _ _ h2
    have := (BMap.get?_eq_some_iff h.psort).mpr (h6 _ h7)
    rw [(BMap.get?_eq_some_iff h.psort).mpr h3] at this
    cases this
    exact .inl ⟨h1, q, bs, h2, h7, h4⟩
  · simp only [not_forall] at hE
    obtain ⟨k0, p0, hk, hne⟩ := hE
    obtain ⟨k, p, i, x, h5, _, h6, h7⟩ := (h.listed hH hk hne q _).mp h2
    obtain ⟨_, _, g1, g2⟩ := h6.packs (h.each k p h5) hH
    obtain ⟨cs, h8, h9, _⟩ := g1 _ _ h7
    have := (BMap.get?_eq_some_iff h.psort).mpr h9
    rw [(BMap.get?_eq_some_iff h.psort).mpr h3] at this
    cases this
    exact g2 _ _ _ h7 h8 h4

omit [DecidableEq ι] in
/-- What the snapshots hold they go on holding. -/
theorem Inv.holds (h : Inv C ids cores U X S R0 m alone) (hH : Healthy C ids R0) {i : Id} {sn : Snapshot Id}
    {d : Dir Bytes} (hi : (i, sn) ∈ R0.snapshots) (hd : Holds C R0 sn.tree d) : Holds C m.repo sn.tree d := by
  by_cases hE : ∀ k p, m.proc k = some p → (alone k).indexes = R0.indexes
  · obtain ⟨h5, h6⟩ := h.early hE
    refine has_mono_holds ?_ hd
    rintro b ⟨h1, q, bs, h2, h3, h4⟩
    exact ⟨h1, q, bs, by rw [h5]; exact h2, h6 _ h3, h4⟩
  · simp only [not_forall] at hE
    obtain ⟨k0, p0, hk, hne⟩ := hE
    have hEa := h.each k0 p0 hk
    obtain ⟨n, x, _, h2, h3⟩ := hEa.stored hH hne
    obtain ⟨g1, g2, g3, _⟩ := h3.packs hEa hH
    refine hEa.facts.prunes.holds m.repo ?_ i sn d (by rw [hEa.view.snaps]; exact hi)
      (has_mono_holds (fun b => (hEa.view.has hH hEa.facts.healthy b).mpr) hd)
    intro b hb
    obtain ⟨q, bs, h4, h5, h6⟩ := g2 b hb
    obtain ⟨cs, h7, h8, _⟩ := g3 _ _ h4
    have := g1.one q cs bs ⟨by rename_i h9; rw [h9]; exact h4, h7⟩ ⟨h4, h5⟩
    subst this
    exact ⟨g1.hashes q cs b ⟨h4, h5⟩ h6, q, cs, (h.listed hH hk hne q _).mpr ⟨k0, p0, n, x, hk, h2, h3, h4⟩, h8, h6⟩

omit [DecidableEq ι] in
theorem Inv.needed (h : Inv C ids cores U X S R0 m alone) (hH : Healthy C ids R0) {i : Id}
    (hi : Needed C R0 i) : Needed C m.repo i :=
  (needed_kept hH.sound (fun _ hb => h.old hH hb) h.snaps (fun j sn hj => by
    obtain ⟨d, hd⟩ := hH.readable j sn hj
    exact ⟨d, h.holds hH hj hd⟩) hi).1

omit [DecidableEq ι] in
/-- From then on a prune finds nothing to do. -/
theorem Inv.nothing (h : Inv C ids cores U X S R0 m alone) (hH : Healthy C ids R0) {k0 : ι}
    {p0 : Proc Id} (hk : m.proc k0 = some p0) (hne : (alone k0).indexes ≠ R0.indexes) {w : World Id}
    (hw : w.repo = m.repo) {src : Source Id} {snaps : List (Snap Id)} (hP : PruneOk C env ids w src snaps) (dry : Bool) :
    prunePlan C env w src snaps dry = .ok none := by
  refine (C26.nothing_iff w hP dry).mpr ?_
  rw [hw]
  exact fun q mf e hl he => h.needed hH (h.lists_needed hH hk hne hl he)

omit [DecidableEq ι] in
/-- The repository is in good order if no blob is listed in two packs. -/
theorem Inv.healthy (h : Inv C ids cores U X S R0 m alone) (hH : Healthy C ids R0)
    (honce : ∀ q mf q' mf' e e', Listed m.repo.indexes q mf → Listed m.repo.indexes q' mf' → e ∈ mf → e' ∈ mf' →
      e.id = e'.id → q = q') : Healthy C ids m.repo := by
  by_cases hE : ∀ k p, m.proc k = some p → (alone k).indexes = R0.indexes
  · obtain ⟨h5, h6⟩ := h.early hE
    have hl : ∀ q bs, Listed m.repo.indexes q (Pack.manifestOf bs) → (q, bs) ∈ m.repo.packs →
        Listed R0.indexes q (Pack.manifestOf bs) ∧ (q, bs) ∈ R0.packs := by
      intro q bs h2 h3
      rw [h5] at h2
      obtain ⟨cs, h7, _⟩ := hH.present _ _ h2
      have := (BMap.get?_eq_some_iff h.psort).mpr (h6 _ h7)
      rw [(BMap.get?_eq_some_iff h.psort).mpr h3] at this
      cases this
      exact ⟨h2, h7⟩
    refine ⟨h.psort, h.isort, by rw [h.snaps]; exact hH.snapshots_sorted, fun q bs hq => (h.known.packs q bs hq).1,
      fun i x hi => (h.known.indexes i x hi).1, h.lists, fun q mf => h.present hH, ?_, honce, ?_, ?_, ?_, ?_, ?_⟩
    · intro q mf h1; rw [h5] at h1; exact hH.distinct q mf h1
    · intro q mf h1; rw [h5] at h1; exact hH.one_kind q mf h1
    · intro q bs b h1 h2; obtain ⟨h3, h4⟩ := hl q bs h1 h2; exact hH.hashes q bs b h3 h4
    · intro q bs b h1 h2; obtain ⟨h3, h4⟩ := hl q bs h1 h2; exact hH.trees q bs b h3 h4
    · intro q bs b h1 h2; obtain ⟨h3, h4⟩ := hl q bs h1 h2; exact hH.full q bs b h3 h4
    · intro i sn hi
      rw [h.snaps] at hi
      obtain ⟨d, hd⟩ := hH.readable i sn hi
      exact ⟨d, h.holds hH hi hd⟩
  · simp only [not_forall] at hE
    obtain ⟨k0, p0, hk, hne⟩ := hE
    have key : ∀ q bs, Listed m.repo.indexes q (Pack.manifestOf bs) → (q, bs) ∈ m.repo.packs →
        ∃ L, Ledger C L ∧ L q bs := by
      intro q bs h1 h2
      obtain ⟨k, p, i, x, h5, _, h6, h7⟩ := (h.listed hH hk hne q _).mp h1
      obtain ⟨g0, _, g1, _⟩ := h6.packs (h.each k p h5) hH
      obtain ⟨cs, h8, h9, _⟩ := g1 _ _ h7
      have := (BMap.get?_eq_some_iff h.psort).mpr h9
      rw [(BMap.get?_eq_some_iff h.psort).mpr h2] at this
      cases this
      exact ⟨_, g0, h7, h8⟩
    refine ⟨h.psort, h.isort, by rw [h.snaps]; exact hH.snapshots_sorted, fun q bs hq => (h.known.packs q bs hq).1,
      fun i x hi => (h.known.indexes i x hi).1, h.lists, fun q mf => h.present hH, ?_, honce, ?_, ?_, ?_, ?_, ?_⟩
    · intro q mf h1
      obtain ⟨bs, h2, rfl⟩ := h.present hH h1
      obtain ⟨L, h3, h4⟩ := key q bs h1 h2
      rw [entry_ids]
      exact h3.distinct q bs h4
    · intro q mf h1
      obtain ⟨bs, h2, rfl⟩ := h.present hH h1
      obtain ⟨L, h3, h4⟩ := key q bs h1 h2
      obtain ⟨k, hk⟩ := h3.one_kind q bs h4
      refine ⟨k, fun e he => ?_⟩
      obtain ⟨b, hb, rfl⟩ := List.mem_map.mp he
      exact hk b hb
    · intro q bs b h1 h2; obtain ⟨L, h3, h4⟩ := key q bs h1 h2; exact h3.hashes q bs b h4
    · intro q bs b h1 h2; obtain ⟨L, h3, h4⟩ := key q bs h1 h2; exact h3.trees q bs b h4
    · intro q bs b h1 h2; obtain ⟨L, h3, h4⟩ := key q bs h1 h2; exact h3.full q bs b h4
    · intro i sn hi
      rw [h.snaps] at hi
      obtain ⟨d, hd⟩ := hH.readable i sn hi
      exact ⟨d, h.holds hH hi hd⟩

/-! ## Steps -/

/-- The processes that may start: prunes, whose objects are in these sets. -/
structure Allowed (C : Codec Id) (env : CacheEnv Id) (ids : Ids Id) (cores : Nat) (U : Pack Id → Prop)
    (X : Index Id → Prop) (j : Job Id) : Prop where
  prune : ∃ plan, IsPrune C env ids cores j plan
  packs : ∀ bs, (∃ p, (p, bs) ∈ j.w.cwd.packs) ∨ FormedBy j.main bs → U bs
  indexes : ∀ x, Writes j.c (sends j.main) x → X x

theorem Allowed.facts (h : Allowed C env ids cores U X j) (hK : Known ids U X S j.w.repo) :
    Facts C ids cores U X S j := by
  obtain ⟨plan, hp⟩ := h.prune
  refine IsPrune.facts hp hK (hp.prunes (cut := fun _ => 0) (S := S) (R0 := j.w.repo)
    ⟨.inr ⟨plan, hp⟩, h.packs, h.indexes, ?_⟩ hK)
  intro s hs
  obtain ⟨src, snaps, hP, hN, hpl⟩ := hp.ok
  obtain ⟨c, reach, h1⟩ := pruning hP hN hpl
  rw [hp.job.2.2, h1.posts, prunePosts, List.mem_append, List.mem_map, List.mem_map] at hs
  rcases hs with ⟨_, _, h2⟩ | ⟨_, _, h2⟩ <;> cases h2

theorem inv_step (hU : Apart ids U X S) (hH : Healthy C ids R0) {m' : Shared ι Id}
    (h : Inv C ids cores U X S R0 m alone) (hs : Shared.Step (Allowed C env ids cores U X) m m') :
    ∃ alone', Inv C ids cores U X S R0 m' alone' := by
  cases hs with
  | start i j h1 h2 h3 =>
    have hK : Known ids U X S j.w.repo := by rw [h2]; exact h.known
    have hE : ∀ k p, m.proc k = some p → (alone k).indexes = R0.indexes := by
      intro k p hk
      by_contra hne
      obtain ⟨plan, hp⟩ := h3.prune
      obtain ⟨src, snaps, hP, _, hpl⟩ := hp.ok
      rw [h.nothing hH hk hne h2 hP] at hpl
      cases hpl
    obtain ⟨e1, e2⟩ := h.early hE
    have hv : View R0 j := ⟨by rw [h2]; exact e1, by rw [h2]; exact h.snaps, by rw [h2]; exact e2⟩
    refine ⟨Function.update alone i m.repo, h.known, h.psort, h.isort, h.snaps, h.lists, ?_, ?_, ?_⟩
    · intro k q hk
      rcases C65.upd_some hk with ⟨rfl, rfl⟩ | ⟨hne, hk⟩
      · rw [Function.update_self]
        refine ⟨h3.facts hK, hv, ?_, fun o ho => ho, fun e he _ => he, fun e he => .inr he⟩
        have : (init j.c j.w j.main).on m.repo = init j.c j.w j.main := by rw [← h2]; rfl
        simp only [this]
        exact .refl
      · rw [Function.update_of_ne hne]
        exact h.each k q hk
    · intro e he
      rw [e1] at he
      exact .inl he
    · intro _
      exact ⟨e1, e2⟩
  | run i p t h1 h2 h3 =>
    obtain ⟨o, f1, f2, f3⟩ := step_frame h3
    rw [on_repo] at f1
    have hEa := h.each i p h1
    have hB := hEa.facts.prunes.toBase
    have e2 : Reachable p.job.c p.job.w p.job.main (t.on (puts (alone i) o)) := .tail hEa.run (f3 (alone i))
    have hs0 := hB.reach hEa.run
    have hs1 := hB.reach e2
    rw [f1]
    -- what is left to show, given what is put
    have keep : ∀ R' : Repo Id, (∀ e ∈ m.repo.packs, e ∈ R'.packs) → (∀ e ∈ m.repo.indexes, e ∈ R'.indexes) →
        Known ids U X S R' → BMap.Sorted R'.packs → BMap.Sorted R'.indexes → R'.snapshots = R0.snapshots →
        (∀ i x, (i, x) ∈ R'.indexes → BMap.Sorted x.packs) →
        (∀ e ∈ (puts (alone i) o).packs, e ∈ (alone i).packs ∨ e ∈ R'.packs) →
        (∀ e ∈ (puts (alone i) o).indexes, e ∈ (alone i).indexes ∨ e ∈ R'.indexes) →
        (∀ e ∈ (alone i).indexes, e ∈ (puts (alone i) o).indexes) →
        (∀ e ∈ R'.indexes, e ∈ m.repo.indexes ∨ e ∈ (puts (alone i) o).indexes) →
        ((puts (alone i) o).indexes = R0.indexes → (alone i).indexes = R0.indexes ∧ R'.indexes = m.repo.indexes) →
        ∃ alone', Inv C ids cores U X S R0 ⟨R', Function.update m.proc i (some { p with s := t })⟩ alone' := by
      intro R' k1 k2 k3 k4 k5 k6 k7 k8 k9 k10 k11 k12
      refine ⟨Function.update alone i (puts (alone i) o), k3, k4, k5, k6, k7, ?_, ?_, ?_⟩
      · intro k q hk
        rcases C65.upd_some hk with ⟨rfl, rfl⟩ | ⟨hne, hk⟩
        · rw [Function.update_self]
          refine ⟨hEa.facts, hEa.view, e2, hEa.left, ?_, ?_⟩
          · intro e he hd
            exact (k8 e he).elim (fun h4 => k1 _ (hEa.packs e h4 hd)) id
          · intro e he
            exact (k9 e he).elim (fun h4 => (hEa.indexes e h4).imp_right (k2 e)) .inr
        · rw [Function.update_of_ne hne]
          have := h.each k q hk
          exact ⟨this.facts, this.view, this.run, this.left, fun e he hd => k1 _ (this.packs e he hd),
            fun e he => (this.indexes e he).imp_right (k2 e)⟩
      · intro e he
        rcases k11 e he with h4 | h4
        · rcases h.origin e h4 with h5 | ⟨k, q, h5, h6⟩
          · exact .inl h5
          · by_cases hk : k = i
            · subst hk
              refine .inr ⟨k, { p with s := t }, Function.update_self .., ?_⟩
              rw [Function.update_self]
              exact k10 e h6
            · refine .inr ⟨k, q, (Function.update_of_ne hk ..).trans h5, ?_⟩
              rw [Function.update_of_ne hk]
              exact h6
        · refine .inr ⟨i, { p with s := t }, Function.update_self .., ?_⟩
          rw [Function.update_self]
          exact h4
      · intro hE
        have hi := hE i _ (Function.update_self ..)
        rw [Function.update_self] at hi
        obtain ⟨g1, g2⟩ := k12 hi
        have := h.early (fun k q hk => by
          by_cases hki : k = i
          · subst hki; exact g1
          · have := hE k q ((Function.update_of_ne hki ..).trans hk)
            rwa [Function.update_of_ne hki] at this)
        exact ⟨g2.trans this.1, fun e he => k1 _ (this.2 e he)⟩
    cases o with
    | none =>
      exact keep m.repo (fun e he => he) (fun e he => he) h.known h.psort h.isort h.snaps h.lists
        (fun e he => .inl he) (fun e he => .inl he) (fun e he => he) (fun e he => .inl he) (fun hi => ⟨hi, rfl⟩)
    | some it =>
      obtain ⟨u1, u2, u3⟩ := f2 it rfl
      cases it with
      | pack q bs =>
        have hin : (q, bs) ∈ (t.on (puts (alone i) (some (.pack q bs)))).world.repo.packs :=
          (BMap.mem_insert_iff (effect hB.run hs0).psort).mpr (.inl ⟨rfl, rfl⟩)
        obtain ⟨a1, a2⟩ := hB.named hs1 hin
        have hput := mem_put h.psort (k := q) (v := bs) (fun v hv => hU.packs _ _ (h.known.packs _ _ hv).2 a2
          ((h.known.packs _ _ hv).1.symm.trans a1))
        refine keep (putItem m.repo (.pack q bs)) (fun e he => (hput e).mpr (.inr he)) (fun e he => he)
          ⟨?_, h.known.indexes, h.known.snaps⟩ (BMap.sorted_insert h.psort _ _) h.isort h.snaps h.lists ?_
          (fun e he => .inl he) (fun e he => he) (fun e he => .inl he) (fun hi => ⟨hi, rfl⟩)
        · intro q' bs' h4
          rcases (hput _).mp h4 with h5 | h5
          · cases h5; exact ⟨a1, a2⟩
          · exact h.known.packs _ _ h5
        · rintro ⟨q', bs'⟩ he
          rcases BMap.mem_insert_of he with ⟨rfl, rfl⟩ | he
          · exact .inr ((hput _).mpr (.inl rfl))
          · exact .inl he
      | index q x =>
        obtain ⟨b1, b2, news, b3⟩ := hB.stores hs0 hs1 (i := q) (x := x) u1 u2 u3
        rw [on_repo] at b1 b3
        have hX : X x := hB.indexes x b3.writes
        have hput := mem_put h.isort (k := q) (v := x) (fun v hv => hU.indexes _ _ (h.known.indexes _ _ hv).2 hX
          ((h.known.indexes _ _ hv).1.symm.trans b2))
        have hnew := (hEa.facts.prunes.idx x b3.writes).1
        rw [hEa.view.indexes] at hnew b1
        have hal : ∀ e, e ∈ (puts (alone i) (some (.index q x))).indexes ↔ e = (q, x) ∨ e ∈ (alone i).indexes :=
          mem_put (effect hB.run hs0).isort (fun v hv => by
            rw [on_repo, b1] at hv
            exact absurd (BMap.mem_keys_of_mem hv) (by rw [b2]; exact hnew))
        refine keep (putItem m.repo (.index q x)) (fun e he => he) (fun e he => (hput e).mpr (.inr he))
          ⟨h.known.packs, ?_, h.known.snaps⟩ h.psort (BMap.sorted_insert h.isort _ _) h.snaps ?_
          (fun e he => .inl he) ?_ (fun e he => (hal e).mpr (.inr he)) ?_ ?_
        · intro i' y h4
          rcases (hput _).mp h4 with h5 | h5
          · cases h5; exact ⟨b2, hX⟩
          · exact h.known.indexes _ _ h5
        · intro i' y h4
          rcases (hput _).mp h4 with h5 | h5
          · cases h5; exact b3.sorted
          · exact h.lists _ _ h5
        · intro e he
          rcases (hal e).mp he with h5 | h5
          · exact .inr ((hput e).mpr (.inl h5))
          · exact .inl h5
        · intro e he
          rcases (hput e).mp he with h5 | h5
          · exact .inr ((hal e).mpr (.inl h5))
          · exact .inl h5
        · intro hi
          have h5 := (hal (q, x)).mpr (.inl rfl)
          rw [hi] at h5
          exact absurd (BMap.mem_keys_of_mem h5) (by rw [b2]; exact hnew)
  | post i p o rest h1 h2 h3 =>
    have hEa := h.each i p h1
    have hB := hEa.facts.prunes.toBase
    have hids : p.job.c.ids = ids := by rw [hB.live]; rfl
    have hmem : o ∈ p.job.posts := hEa.left o (by rw [h3]; exact List.mem_cons_self)
    have hjoin := hEa.joined h2
    have proc : ∀ k q, Function.update m.proc i (some { p with left := rest }) k = some q →
        ∃ q', m.proc k = some q' ∧ q.job = q'.job ∧ q.s = q'.s ∧ ∀ o ∈ q.left, o ∈ q'.left := by
      intro k q hk
      rcases C65.upd_some hk with ⟨rfl, rfl⟩ | ⟨hne, hk⟩
      · exact ⟨p, h1, rfl, rfl, fun o ho => by rw [h3]; exact List.mem_cons_of_mem _ ho⟩
      · exact ⟨q, hk, rfl, rfl, fun o ho => ho⟩
    have back : ∀ k q, m.proc k = some q → ∃ q', Function.update m.proc i (some { p with left := rest }) k = some q' := by
      intro k q hk
      by_cases hki : k = i
      · subst hki; exact ⟨_, Function.update_self ..⟩
      · exact ⟨q, (Function.update_of_ne hki ..).trans hk⟩
    have notEarly : ∀ {Q : Prop}, (∀ k q, Function.update m.proc i (some { p with left := rest }) k = some q →
        (alone k).indexes = R0.indexes) → Q := by
      intro Q hE
      exact absurd (hE i _ (Function.update_self ..)) hjoin
    rw [hids]
    rcases hEa.facts.prunes.posts o hmem with ⟨l, hl, rfl⟩ | ⟨q, rfl⟩
    · rw [hEa.view.indexes] at hl
      refine ⟨alone, ⟨h.known.packs, fun i' y h4 => h.known.indexes i' y (BMap.mem_erase_iff.mp h4).2, h.known.snaps⟩,
        h.psort, BMap.sorted_erase h.isort _, h.snaps, fun i' y h4 => h.lists i' y (BMap.mem_erase_iff.mp h4).2, ?_, ?_,
        notEarly⟩
      · intro k q hk
        obtain ⟨q', g1, g2, g3, g4⟩ := proc k q hk
        have := h.each k q' g1
        refine ⟨by rw [g2]; exact this.facts, by rw [g2]; exact this.view, by rw [g2, g3]; exact this.run,
          fun o ho => by rw [g2]; exact this.left o (g4 o ho), this.packs, ?_⟩
        rintro ⟨i', y⟩ he
        by_cases h0 : (i', y) ∈ R0.indexes
        · exact .inl h0
        · refine .inr (BMap.mem_erase_iff.mpr ⟨?_, (this.indexes _ he).resolve_left h0⟩)
          intro h5
          exact (this.is_new hH he h0).fresh (by rw [show i' = l from h5]; exact hl)
      · intro e he
        rcases h.origin e (BMap.mem_erase_iff.mp he).2 with h5 | ⟨k, q, h5, h6⟩
        · exact .inl h5
        · obtain ⟨q', h7⟩ := back k q h5
          exact .inr ⟨k, q', h7, h6⟩
    · have hd := hEa.view.drop hH hEa.facts.healthy (hEa.facts.drops q hmem)
      refine ⟨alone, ⟨fun i' y h4 => h.known.packs i' y (BMap.mem_erase_iff.mp h4).2, h.known.indexes, h.known.snaps⟩,
        BMap.sorted_erase h.psort _, h.isort, h.snaps, h.lists, ?_, ?_, notEarly⟩
      · intro k q' hk
        obtain ⟨q'', g1, g2, g3, g4⟩ := proc k q' hk
        have := h.each k q'' g1
        refine ⟨by rw [g2]; exact this.facts, by rw [g2]; exact this.view, by rw [g2, g3]; exact this.run,
          fun o ho => by rw [g2]; exact this.left o (g4 o ho), ?_, this.indexes⟩
        intro e he hnd
        refine BMap.mem_erase_iff.mpr ⟨?_, this.packs e he hnd⟩
        intro h5
        exact hnd (by rw [h5]; exact hd)
      · intro e he
        rcases h.origin e he with h5 | ⟨k, q, h5, h6⟩
        · exact .inl h5
        · obtain ⟨q', h7⟩ := back k q h5
          exact .inr ⟨k, q', h7, h6⟩

theorem inv (hU : Apart ids U X S) (hH : Healthy C ids R0) (hK : Known ids U X S R0)
    (h : Shared.Reachable (Allowed C env ids cores U X) R0 m) : ∃ alone, Inv C ids cores U X S R0 m alone := by
  induction h with
  | refl =>
    exact ⟨fun _ => R0, hK, hH.packs_sorted, hH.indexes_sorted, rfl, hH.index_packs, fun k p hk => (by cases hk),
      fun e he => .inl he, fun _ => ⟨rfl, fun e he => he⟩⟩
  | tail _ hs ih =>
    obtain ⟨alone, hi⟩ := ih
    exact inv_step hU hH hi hs

theorem Allowed.removes (h : Allowed C env ids cores U X j) : ∀ l ∈ BMap.keys j.w.repo.indexes, Post.rmIndex l ∈ j.posts := by
  obtain ⟨plan, hp⟩ := h.prune
  obtain ⟨src, snaps, hP, hN, hpl⟩ := hp.ok
  obtain ⟨c, reach, h1⟩ := pruning hP hN hpl
  intro l hl
  rw [hp.job.2.2, h1.posts, prunePosts]
  exact List.mem_append_left _ (List.mem_map.mpr ⟨l, hl, rfl⟩)

/-- Each index there was at first is gone, or each process still has to remove it. -/
theorem gone (hU : Apart ids U X S) (hH : Healthy C ids R0) (hK : Known ids U X S R0)
    (h : Shared.Reachable (Allowed C env ids cores U X) R0 m) :
    ∀ k p, m.proc k = some p → ∀ l ∈ BMap.keys R0.indexes, Post.rmIndex l ∈ p.left ∨ l ∉ BMap.keys m.repo.indexes := by
  induction h with
  | refl => intro k p hk; cases hk
  | @tail m1 m2 hr hs ih =>
    obtain ⟨alone, hi⟩ := inv hU hH hK hr
    obtain ⟨alone2, hi2⟩ := inv hU hH hK (hr.tail hs)
    cases hs with
    | start i j h1 h2 h3 =>
      intro k p hk l hl
      rcases C65.upd_some hk with ⟨rfl, rfl⟩ | ⟨hne, hk⟩
      · have hv := (hi2.each _ _ (Function.update_self ..)).view
        refine .inl (h3.removes l ?_)
        rw [hv.indexes]
        exact hl
      · exact ih k p hk l hl
    | run i p t h1 h2 h3 =>
      obtain ⟨o, f1, f2, f3⟩ := step_frame h3
      rw [on_repo] at f1
      have hEa := hi.each i p h1
      have hB := hEa.facts.prunes.toBase
      have hs0 := hB.reach hEa.run
      have hs1 := hB.reach (.tail hEa.run (f3 (alone i)))
      have key : ∀ l ∈ BMap.keys R0.indexes, l ∉ BMap.keys m1.repo.indexes → l ∉ BMap.keys t.world.repo.indexes := by
        intro l hl hn
        rw [f1]
        cases o with
        | none => exact hn
        | some it =>
          obtain ⟨u1, u2, u3⟩ := f2 it rfl
          cases it with
          | pack q bs => exact hn
          | index q x =>
            obtain ⟨_, b2, news, b3⟩ := hB.stores hs0 hs1 (i := q) (x := x) u1 u2 u3
            have hnew := (hEa.facts.prunes.idx x b3.writes).1
            rw [hEa.view.indexes] at hnew
            intro hx
            rcases BMap.keys_insert_mem.mp hx with rfl | hx
            · rw [b2] at hl
              exact hnew hl
            · exact hn hx
      intro k q hk l hl
      rcases C65.upd_some hk with ⟨rfl, rfl⟩ | ⟨hne, hk⟩
      · exact (ih k p h1 l hl).imp_right (key l hl)
      · exact (ih k q hk l hl).imp_right (key l hl)
    | post i p o rest h1 h2 h3 =>
      have hEa := hi.each i p h1
      have hmem : o ∈ p.job.posts := hEa.left o (by rw [h3]; exact List.mem_cons_self)
      have key : ∀ l, l ∉ BMap.keys m1.repo.indexes → l ∉ BMap.keys (applyPost p.job.c.ids m1.repo o).indexes := by
        intro l hn hx
        rcases hEa.facts.prunes.posts o hmem with ⟨l', _, rfl⟩ | ⟨q, rfl⟩
        · exact hn (BMap.keys_erase_mem.mp hx).2
        · exact hn hx
      intro k q hk l hl
      rcases C65.upd_some hk with ⟨rfl, rfl⟩ | ⟨hne, hk⟩
      · rcases ih k p h1 l hl with h4 | h4
        · rw [h3] at h4
          rcases List.mem_cons.mp h4 with rfl | h4
          · exact .inr (fun hx => (BMap.keys_erase_mem.mp hx).1 rfl)
          · exact .inl h4
        · exact .inr (key l h4)
      · exact (ih k q hk l hl).imp_right (key l)

end Backpak.Prunes
