import Verif.Lemmas.Prune
import Verif.Spec.Sizes
import Verif.Lemmas.Shared
import Verif.Props.C65

/-!
# A prune beside backups: what each process puts in the repository, and what that does to it
-/

namespace Backpak.Beside

open Spec Pipeline
open C65 (Apart Known mem_put listed_mono)

variable {Id : Type} [LinearOrder Id]

/-- What a process is given, with the packs that can take part in its run. -/
def own (ids : Ids Id) (cores : Nat) (j : Job Id) : Cfg Id :=
  ⟨ids, true, cores, j.c.start, Involved j.w j.main⟩

/-- The IDs of the blobs a process adds. -/
def gives (j : Job Id) : List Id := adds j.c.start j.main

/-- No live index lists the blob. -/
def Unlisted (R : Repo Id) (x : Id) : Prop := ∀ q mf e, Listed R.indexes q mf → e ∈ mf → e.id ≠ x

/-- What is known of any process. -/
structure Base (C : Codec Id) (ids : Ids Id) (cores : Nat) (U : Pack Id → Prop) (X : Index Id → Prop)
    (j : Job Id) : Prop where
  live : j.c = liveCfg ids cores j.c.start
  run : RunOk (own ids cores j) j.w j.main
  ledger : Ledger C (StartPack (own ids cores j))
  fresh : Fresh C (StartPack (own ids cores j)) (sends j.main)
  packs : ∀ bs, Involved j.w j.main bs → U bs
  indexes : ∀ x, Writes (own ids cores j) (sends j.main) x → X x

/-- Of one that adds to what there is. -/
structure Adds (C : Codec Id) (ids : Ids Id) (cores : Nat) (U : Pack Id → Prop) (X : Index Id → Prop)
    (S : Snapshot Id → Prop) (R0 : Repo Id) (j : Job Id) : Prop extends Base C ids cores U X j where
  sup : j.c.start.supersedes = []
  new : ∀ x ∈ gives j, Unlisted j.w.repo x
  idx : IndexOk (own ids cores j) j.w.repo (sends j.main)
  safe : ∀ x, Writes (own ids cores j) (sends j.main) x → ¬ Superseded R0.indexes (ids.indexId x)
  posts : ∀ o ∈ j.posts, ∃ sn, o = .putSnap sn ∧ S sn

/-- Of one that replaces what there is. -/
structure Prunes (C : Codec Id) (ids : Ids Id) (cores : Nat) (U : Pack Id → Prop) (X : Index Id → Prop)
    (j : Job Id) : Prop extends Base C ids cores U X j where
  sup : j.c.start.supersedes = BMap.keys j.w.repo.indexes
  some : BMap.keys j.w.repo.indexes ≠ []
  idx : IndexNew (own ids cores j) j.w.repo (sends j.main)
  posts : ∀ o ∈ j.posts, (∃ i ∈ BMap.keys j.w.repo.indexes, o = .rmIndex i) ∨ ∃ q, o = .rmPack q
  apart : ∀ R' x news, NewIndex (own ids cores j) j.w.repo R' (sends j.main) x news →
    ∀ q, Post.rmPack q ∈ j.posts → q ∉ BMap.keys x.packs
  joined : ∀ s, Reachable (own ids cores j) j.w j.main s → s.joined = true →
    ∃ e ∈ s.world.repo.indexes, e.1 ∉ BMap.keys j.w.repo.indexes
  holds : ∀ R', (∀ b, (b ∈ sends j.main ∨ ∃ p bs, StartPack (own ids cores j) p bs ∧ b ∈ bs) → Has C R' b) →
    ∀ i sn d, (i, sn) ∈ j.w.repo.snapshots → Holds C j.w.repo sn.tree d → Holds C R' sn.tree d

def isPrune (j : Job Id) : Prop := j.c.start.supersedes ≠ []

variable {C : Codec Id} {ids : Ids Id} {cores : Nat} {U : Pack Id → Prop} {X : Index Id → Prop}
  {S : Snapshot Id → Prop} {R0 : Repo Id} {j : Job Id}

theorem Base.reach (h : Base C ids cores U X j) {s : State Id} (hs : Reachable j.c j.w j.main s) :
    Reachable (own ids cores j) j.w j.main s := by
  rw [h.live] at hs
  exact reachable_allowed (c := liveCfg ids cores j.c.start) (c' := own ids cores j) rfl rfl rfl rfl
    (fun cur hc => .inr (.inr hc)) hs

theorem Base.named (h : Base C ids cores U X j) {s : State Id} (hs : Reachable (own ids cores j) j.w j.main s)
    {q : Id} {bs : Pack Id} (hq : (q, bs) ∈ s.world.repo.packs) : q = ids.packId (Pack.manifestOf bs) ∧ U bs := by
  obtain ⟨h1, h2⟩ := (effect h.run hs).names q bs hq
  exact ⟨h1, h.packs bs h2⟩

/-- When it puts an index in the repository. -/
theorem Base.stores (h : Base C ids cores U X j) {s t : State Id}
    (hs : Reachable (own ids cores j) j.w j.main s) (ht : Reachable (own ids cores j) j.w j.main t)
    {i : Id} {x : Index Id} (hup : s.up = .busy (.index i x)) (hix : t.ix = s.ix) (hnb : ∀ i', t.up ≠ .busy i') :
    s.world.repo.indexes = j.w.repo.indexes ∧ i = ids.indexId x ∧
    ∃ news, NewIndex (own ids cores j) j.w.repo t.world.repo (sends j.main) x news := by
  obtain ⟨h1, h2, h3⟩ := (filed h.run.live hs).busy i x hup
  have hy : t.ix = .exited (some x) := hix.trans h1
  exact ⟨h3, h2, newIndex h.run ht hy ((filed h.run.live ht).put x hy (fun _ _ => hnb _))⟩

theorem index_ids {c : Cfg Id} {R R' : Repo Id} {main : List (Op Id)} {x : Index Id} {news : List (Id × Pack Id)}
    (hn : NewIndex c R R' (sends main) x news) {q : Id} {mf : Manifest Id} {e : Entry Id}
    (hq : (q, mf) ∈ x.packs) (he : e ∈ mf) : e.id ∈ adds c.start main := by
  rcases List.mem_append.mp (hn.packs.subset hq) with h2 | h2
  · exact List.mem_append_left _ (List.mem_flatMap.mpr ⟨(q, mf), h2, List.mem_map.mpr ⟨e, he, rfl⟩⟩)
  · obtain ⟨⟨q, cs⟩, h3, h4⟩ := List.mem_map.mp h2
    cases h4
    obtain ⟨b, hb, rfl⟩ := List.mem_map.mp he
    refine List.mem_append_right _ (List.mem_map.mpr ⟨b, ?_, rfl⟩)
    exact hn.blobs.subset (List.mem_flatMap.mpr ⟨_, h3, hb⟩)

/-- The packs of the new index. -/
theorem index_packs {c : Cfg Id} {R R' : Repo Id} {main : List (Op Id)} {x : Index Id} {news : List (Id × Pack Id)}
    (hi : PackInj c) (hL : Ledger C (StartPack c)) (hf : Fresh C (StartPack c) (sends main))
    (hnm : ∀ p bs, (p, bs) ∈ R'.packs → Good c p bs)
    (hn : NewIndex c R R' (sends main) x news) :
    Ledger C (fun p bs => (p, Pack.manifestOf bs) ∈ x.packs ∧ (p, bs) ∈ R'.packs) ∧
    ∀ b, (b ∈ sends main ∨ ∃ p bs, StartPack c p bs ∧ b ∈ bs) →
      ∃ p bs, (p, Pack.manifestOf bs) ∈ x.packs ∧ (p, bs) ∈ R'.packs ∧ b ∈ bs := by
  have hgood : ∀ p bs, StartPack c p bs ∨ (p, bs) ∈ news → Good c p bs := by
    rintro p bs (h | h)
    · exact h.2
    · exact hn.good _ h
  have hled := hL.add hf hn.blobs hn.kinds
    (fun p bs bs' h1 h2 => Good_unique hi (hgood p bs h1) (hgood p bs' h2))
  have hmem : ∀ p bs, Good c p bs → ((p, Pack.manifestOf bs) ∈ x.packs ↔ StartPack c p bs ∨ (p, bs) ∈ news) := by
    intro p bs hg
    rw [hn.packs.mem_iff, List.mem_append, List.mem_map]
    constructor
    · rintro (h1 | ⟨⟨q, cs⟩, h1, heq⟩)
      · exact .inl ⟨h1, hg⟩
      · simp only [Prod.mk.injEq] at heq
        obtain ⟨rfl, _⟩ := heq
        have := Good_unique hi hg (hn.good _ h1)
        subst this
        exact .inr h1
    · rintro (h1 | h1)
      · exact .inl h1.1
      · exact .inr ⟨_, h1, rfl⟩
  refine ⟨hled.mono (fun p bs h => (hmem p bs (hnm p bs h.2)).mp h.1), ?_⟩
  have key : ∀ p bs b, StartPack c p bs ∨ (p, bs) ∈ news → b ∈ bs →
      ∃ p bs, (p, Pack.manifestOf bs) ∈ x.packs ∧ (p, bs) ∈ R'.packs ∧ b ∈ bs := by
    intro p bs b h1 hb
    have hg := hgood p bs h1
    have hm := (hmem p bs hg).mpr h1
    obtain ⟨cs, hc, _⟩ := hn.there _ _ hm
    have := Good_unique hi hg (hnm _ _ hc)
    subst this
    exact ⟨p, bs, hm, hc, hb⟩
  rintro b (hb | ⟨p, bs, h1, hb⟩)
  · obtain ⟨⟨p, bs⟩, h1, h2⟩ := List.mem_flatMap.mp (hn.blobs.symm.subset hb)
    exact key p bs b (.inr h1) h2
  · exact key p bs b (.inl h1) hb

/-- Two ledgers of packs of one repository, with no blob in common. -/
theorem ledger_union {L L' : Id → Pack Id → Prop} (h : Ledger C L) (h' : Ledger C L')
    (hone : ∀ p bs bs', (L p bs ∨ L' p bs) → (L p bs' ∨ L' p bs') → bs = bs')
    (hd : ∀ p bs p' bs' b b', L p bs → L' p' bs' → b ∈ bs → b' ∈ bs' → b.id ≠ b'.id) :
    Ledger C (fun p bs => L p bs ∨ L' p bs) where
  one := hone
  distinct p bs := Or.rec (h.distinct p bs) (h'.distinct p bs)
  once p bs p' bs' b b' h1 h2 hb hb' he := by
    rcases h1 with h1 | h1 <;> rcases h2 with h2 | h2
    · exact h.once p bs p' bs' b b' h1 h2 hb hb' he
    · exact absurd he (hd _ _ _ _ _ _ h1 h2 hb hb')
    · exact absurd he.symm (hd _ _ _ _ _ _ h2 h1 hb' hb)
    · exact h'.once p bs p' bs' b b' h1 h2 hb hb' he
  one_kind p bs := Or.rec (h.one_kind p bs) (h'.one_kind p bs)
  hashes p bs b := Or.rec (h.hashes p bs b) (h'.hashes p bs b)
  trees p bs b := Or.rec (h.trees p bs b) (h'.trees p bs b)
  full p bs b := Or.rec (h.full p bs b) (h'.full p bs b)

variable {ι : Type} [DecidableEq ι]

/-- An index that some backup made. -/
def Made (ids : Ids Id) (R0 : Repo Id) (J : ι → Option (Job Id)) (i : Id) (x : Index Id) : Prop :=
  x.supersedes = [] ∧ ¬ Superseded R0.indexes i ∧
  ∃ k j, J k = some j ∧ ¬ isPrune j ∧ ∀ q mf e, (q, mf) ∈ x.packs → e ∈ mf → e.id ∈ gives j

/-- Until the index of the prune is stored. -/
structure Early (ids : Ids Id) (R0 : Repo Id) (J : ι → Option (Job Id)) (R : Repo Id) (alone : ι → Repo Id) : Prop where
  unpruned : ∀ k j, J k = some j → isPrune j → (alone k).indexes = j.w.repo.indexes
  basePacks : ∀ e ∈ R0.packs, e ∈ R.packs
  base : ∀ e ∈ R0.indexes, e ∈ R.indexes
  above : ∀ k j, J k = some j → (∀ e ∈ R0.packs, e ∈ j.w.repo.packs) ∧
    (∀ e ∈ R0.indexes, e ∈ j.w.repo.indexes) ∧ ∀ i, Superseded j.w.repo.indexes i → Superseded R0.indexes i
  origin : ∀ i x, (i, x) ∈ R.indexes → (i, x) ∈ R0.indexes ∨ Made ids R0 J i x
  packs : ∀ k j, J k = some j → ∀ e ∈ (alone k).packs, e ∈ R.packs
  indexes : ∀ k j, J k = some j → ∀ e ∈ (alone k).indexes, e ∈ R.indexes
  starts : ∀ k j, J k = some j → ∀ e ∈ j.w.repo.indexes, e ∈ R.indexes
  since : ∀ k j, J k = some j → isPrune j → ∀ i x, (i, x) ∈ R.indexes → i ∉ BMap.keys j.w.repo.indexes →
    ∀ q mf e, (q, mf) ∈ x.packs → e ∈ mf → Unlisted j.w.repo e.id

/-- The index of the prune. -/
structure Pruned (C : Codec Id) (ids : Ids Id) (U : Pack Id → Prop) (R0 : Repo Id) (j : Job Id) (n : Id)
    (x : Index Id) : Prop where
  prune : isPrune j
  new : n ∉ BMap.keys j.w.repo.indexes
  live : ¬ Superseded j.w.repo.indexes n
  sup : x.supersedes = BMap.keys j.w.repo.indexes
  above : ∀ e ∈ R0.indexes, e ∈ j.w.repo.indexes
  base : ∀ i, Superseded j.w.repo.indexes i → Superseded R0.indexes i
  older : ∀ b, Has C R0 b → Has C j.w.repo b
  rmPack : ∀ q, Post.rmPack q ∈ j.posts → q ∉ BMap.keys x.packs
  holds : ∀ R', (∀ q bs b, (q, Pack.manifestOf bs) ∈ x.packs → q = ids.packId (Pack.manifestOf bs) → U bs → b ∈ bs →
      Has C R' b) →
    ∀ i sn d, (i, sn) ∈ j.w.repo.snapshots → Holds C j.w.repo sn.tree d → Holds C R' sn.tree d

/-- From then on. -/
structure Late (C : Codec Id) (ids : Ids Id) (U : Pack Id → Prop) (R0 : Repo Id) (J : ι → Option (Job Id)) (R : Repo Id)
    (alone : ι → Repo Id) (i0 : ι) (j0 : Job Id) (n : Id) (x0 : Index Id) : Prop where
  job : J i0 = some j0
  index : Pruned C ids U R0 j0 n x0
  stored : (n, x0) ∈ (alone i0).indexes
  there : (n, x0) ∈ R.indexes
  origin : ∀ i x, (i, x) ∈ R.indexes → (i, x) ∈ R0.indexes ∨ Made ids R0 J i x ∨ (i = n ∧ x = x0)
  kept : ∀ k j, J k = some j → ∀ i x, (i, x) ∈ (alone k).indexes → i ∉ BMap.keys j0.w.repo.indexes →
    (i, x) ∈ R.indexes

/-- What holds of the repository at every instant. -/
structure Core (C : Codec Id) (ids : Ids Id) (U : Pack Id → Prop) (X : Index Id → Prop)
    (S : Snapshot Id → Prop) (R0 : Repo Id) (J : ι → Option (Job Id)) (R : Repo Id) (alone : ι → Repo Id) : Prop where
  known : Known ids U X S R
  sound : Sound C R
  ssort : BMap.Sorted R.snapshots
  lists : ∀ i x, (i, x) ∈ R.indexes → BMap.Sorted x.packs
  snaps0 : ∀ e ∈ R0.snapshots, e ∈ R.snapshots
  snaps : ∀ k j, J k = some j → ∀ e ∈ (alone k).snapshots, e ∈ R.snapshots
  mine : ∀ k j, J k = some j → ¬ isPrune j → ∀ q bs, (q, bs) ∈ (alone k).packs → (∀ b ∈ bs, b.id ∈ gives j) →
    (q, bs) ∈ R.packs
  waits : ∀ k j, J k = some j → ¬ isPrune j → (alone k).indexes = j.w.repo.indexes → ∀ x ∈ gives j, Unlisted R x
  phase : Early ids R0 J R alone ∨ ∃ i0 j0 n x0, Late C ids U R0 J R alone i0 j0 n x0

/-- At most one process prunes. -/
def OnePrune (J : ι → Option (Job Id)) : Prop :=
  ∀ i k j j', J i = some j → J k = some j' → isPrune j → isPrune j' → i = k

/-- No two processes add the same new blob. -/
def NewApart (J : ι → Option (Job Id)) : Prop :=
  ∀ i k j j', J i = some j → J k = some j' → i ≠ k → ∀ x, x ∈ gives j → Unlisted j.w.repo x →
    x ∈ gives j' → ¬ Unlisted j'.w.repo x

/-- No backup makes a pack that the prune removes. -/
def Clear (ids : Ids Id) (U : Pack Id → Prop) (J : ι → Option (Job Id)) : Prop :=
  ∀ i k j j', J i = some j → J k = some j' → isPrune j → ¬ isPrune j' →
    ∀ bs, U bs → (∀ b ∈ bs, b.id ∈ gives j') → Post.rmPack (ids.packId (Pack.manifestOf bs)) ∉ j.posts

variable {J : ι → Option (Job Id)} {R : Repo Id} {alone : ι → Repo Id}

omit [DecidableEq ι] in
theorem Early.sup (h : Early ids R0 J R alone) (k : Id) : Superseded R.indexes k ↔ Superseded R0.indexes k := by
  constructor
  · rintro ⟨j, x, hx, hk⟩
    rcases h.origin j x hx with h1 | ⟨h1, _⟩
    · exact ⟨j, x, h1, hk⟩
    · rw [h1] at hk; cases hk
  · rintro ⟨j, x, hx, hk⟩
    exact ⟨j, x, h.base _ hx, hk⟩

omit [DecidableEq ι] in
/-- What was listed when a process began is. -/
theorem Early.listed (h : Early ids R0 J R alone) {k : ι} {j : Job Id} (hk : J k = some j)
    {q : Id} {mf : Manifest Id} (hl : Listed j.w.repo.indexes q mf) : Listed R.indexes q mf :=
  listed_mono (h.starts k j hk) (fun i hi => by
    obtain ⟨i', x, h1, h2⟩ := (h.sup i).mp hi
    exact ⟨i', x, (h.above k j hk).2.1 _ h1, h2⟩) hl

omit [DecidableEq ι] in
theorem Late.live {i0 : ι} {j0 : Job Id} {n : Id} {x0 : Index Id} (h : Late C ids U R0 J R alone i0 j0 n x0)
    {i : Id} {x : Index Id} (hi : (i, x) ∈ R.indexes) :
    Superseded R.indexes i ↔ i ∈ BMap.keys j0.w.repo.indexes := by
  constructor
  · rintro ⟨k, y, hy, hs⟩
    by_contra hn
    have h0 : ¬ Superseded R0.indexes i := by
      rcases h.origin i x hi with h1 | h1 | ⟨rfl, rfl⟩
      · exact absurd (BMap.mem_keys_of_mem (h.index.above _ h1)) hn
      · exact h1.2.1
      · rintro ⟨k, y, h1, h2⟩
        exact h.index.live ⟨k, y, h.index.above _ h1, h2⟩
    rcases h.origin k y hy with h1 | h1 | ⟨rfl, rfl⟩
    · exact h0 ⟨k, y, h1, hs⟩
    · rw [h1.1] at hs; cases hs
    · rw [h.index.sup] at hs
      exact hn hs
  · intro hs
    exact ⟨n, x0, h.there, by rw [h.index.sup]; exact hs⟩

omit [DecidableEq ι] in
theorem Late.listed {i0 : ι} {j0 : Job Id} {n : Id} {x0 : Index Id} (h : Late C ids U R0 J R alone i0 j0 n x0)
    (q : Id) (mf : Manifest Id) : Listed R.indexes q mf ↔
      ∃ i x, (i, x) ∈ R.indexes ∧ i ∉ BMap.keys j0.w.repo.indexes ∧ (q, mf) ∈ x.packs := by
  constructor
  · rintro ⟨i, x, ⟨h1, h2⟩, h3⟩
    exact ⟨i, x, h1, fun h4 => h2 ((h.live h1).mpr h4), h3⟩
  · rintro ⟨i, x, h1, h2, h3⟩
    exact ⟨i, x, ⟨h1, fun h4 => h2 ((h.live h1).mp h4)⟩, h3⟩

omit [DecidableEq ι] in
/-- What is listed was made by a backup or is in the index of the prune. -/
theorem Late.made {i0 : ι} {j0 : Job Id} {n : Id} {x0 : Index Id} (h : Late C ids U R0 J R alone i0 j0 n x0)
    {i : Id} {x : Index Id} (hi : (i, x) ∈ R.indexes) (hn : i ∉ BMap.keys j0.w.repo.indexes) :
    Made ids R0 J i x ∨ (i = n ∧ x = x0) := by
  rcases h.origin i x hi with h1 | h1
  · exact absurd (BMap.mem_keys_of_mem (h.index.above _ h1)) hn
  · exact h1

/-! ## What the processes do -/

/-- A pack is stored. -/
theorem Core.pack (hU : Apart ids U X S) (h : Core C ids U X S R0 J R alone) {k : ι} {j : Job Id} (hk : J k = some j)
    {q : Id} {bs : Pack Id} (hq : q = ids.packId (Pack.manifestOf bs)) (hbs : U bs) :
    Core C ids U X S R0 J (putItem R (.pack q bs)) (Function.update alone k (putItem (alone k) (.pack q bs))) := by
  have hput : ∀ e, e ∈ (putItem R (.pack q bs)).packs ↔ e = (q, bs) ∨ e ∈ R.packs :=
    mem_put h.sound.packs_sorted (fun v hv => hU.packs _ _ (h.known.packs _ _ hv).2 hbs
      ((h.known.packs _ _ hv).1.symm.trans hq))
  have old : ∀ e ∈ R.packs, e ∈ (putItem R (.pack q bs)).packs := fun e he => (hput e).mpr (.inr he)
  have hsort : BMap.Sorted (putItem R (.pack q bs)).packs := BMap.sorted_insert h.sound.packs_sorted _ _
  have hal : ∀ i, (Function.update alone k (putItem (alone k) (.pack q bs)) i).indexes = (alone i).indexes ∧
      (Function.update alone k (putItem (alone k) (.pack q bs)) i).snapshots = (alone i).snapshots ∧
      ∀ e ∈ (Function.update alone k (putItem (alone k) (.pack q bs)) i).packs, e = (q, bs) ∨ e ∈ (alone i).packs := by
    intro i
    by_cases hi : i = k
    · subst hi
      rw [Function.update_self]
      refine ⟨rfl, rfl, ?_⟩
      rintro ⟨q', bs'⟩ he
      rcases BMap.mem_insert_of he with ⟨rfl, rfl⟩ | he
      · exact .inl rfl
      · exact .inr he
    · rw [Function.update_of_ne hi]
      exact ⟨rfl, rfl, fun e he => .inr he⟩
  refine ⟨⟨?_, h.known.indexes, h.known.snaps⟩, ?_, h.ssort, h.lists, h.snaps0, ?_, ?_, ?_, ?_⟩
  · intro p cs hp
    rcases (hput _).mp hp with h1 | h1
    · cases h1; exact ⟨hq, hbs⟩
    · exact h.known.packs _ _ h1
  · refine Ledger.sound (h.sound.ledger.mono ?_) hsort h.sound.indexes_sorted ?_
    · rintro p cs ⟨h1, h2⟩
      obtain ⟨ds, h3, h4⟩ := h.sound.present _ _ h1
      have hu : cs = ds := by
        have a := (BMap.get?_eq_some_iff hsort).mpr h2
        rw [(BMap.get?_eq_some_iff hsort).mpr (old _ h3)] at a
        exact (Option.some.inj a).symm
      subst hu
      exact ⟨h1, h3⟩
    · intro p mf hl
      obtain ⟨ds, h3, h4⟩ := h.sound.present _ _ hl
      exact ⟨ds, old _ h3, h4⟩
  · intro i j' hi e he
    rw [(hal i).2.1] at he
    exact h.snaps i j' hi e he
  · intro i j' hi hnp p cs hp hcs
    rcases (hal i).2.2 _ hp with h1 | h1
    · exact (hput _).mpr (.inl h1)
    · exact old _ (h.mine i j' hi hnp p cs h1 hcs)
  · intro i j' hi hnp hidx
    rw [(hal i).1] at hidx
    exact h.waits i j' hi hnp hidx
  · rcases h.phase with h1 | ⟨i0, j0, n, x0, h1⟩
    · refine .inl ⟨fun i j' hi hp => by rw [(hal i).1]; exact h1.unpruned i j' hi hp,
        fun e he => old _ (h1.basePacks e he), h1.base, h1.above, h1.origin, ?_, ?_, h1.starts, h1.since⟩
      · intro i j' hi e he
        rcases (hal i).2.2 _ he with h2 | h2
        · exact (hput _).mpr (.inl h2)
        · exact old _ (h1.packs i j' hi e h2)
      · intro i j' hi e he
        rw [(hal i).1] at he
        exact h1.indexes i j' hi e he
    · refine .inr ⟨i0, j0, n, x0, h1.job, h1.index, by rw [(hal i0).1]; exact h1.stored, h1.there, h1.origin, ?_⟩
      intro i j' hi p y hp
      rw [(hal i).1] at hp
      exact h1.kept i j' hi p y hp

/-- A snapshot is stored. -/
theorem Core.snap (hU : Apart ids U X S) (h : Core C ids U X S R0 J R alone) {k : ι} {j : Job Id} (hk : J k = some j)
    {sn : Snapshot Id} (hsn : S sn) :
    Core C ids U X S R0 J (applyPost ids R (.putSnap sn))
      (Function.update alone k (applyPost ids (alone k) (.putSnap sn))) := by
  have hput : ∀ e, e ∈ (applyPost ids R (.putSnap sn)).snapshots ↔ e = (ids.snapId sn, sn) ∨ e ∈ R.snapshots :=
    mem_put h.ssort (fun v hv => hU.snaps _ _ (h.known.snaps _ _ hv).2 hsn (h.known.snaps _ _ hv).1.symm)
  have hal : ∀ i, (Function.update alone k (applyPost ids (alone k) (.putSnap sn)) i).indexes = (alone i).indexes ∧
      (Function.update alone k (applyPost ids (alone k) (.putSnap sn)) i).packs = (alone i).packs := by
    intro i
    by_cases hi : i = k
    · subst hi
      rw [Function.update_self]
      exact ⟨rfl, rfl⟩
    · rw [Function.update_of_ne hi]
      exact ⟨rfl, rfl⟩
  have hs := h.sound
  refine ⟨⟨h.known.packs, h.known.indexes, ?_⟩,
    ⟨hs.packs_sorted, hs.indexes_sorted, hs.present, hs.distinct, hs.once, hs.one_kind, hs.hashes, hs.trees, hs.full⟩,
    BMap.sorted_insert h.ssort _ _, h.lists, fun e he => (hput e).mpr (.inr (h.snaps0 e he)), ?_, ?_, ?_, ?_⟩
  · intro i s hi
    rcases (hput _).mp hi with h1 | h1
    · cases h1; exact ⟨rfl, hsn⟩
    · exact h.known.snaps _ _ h1
  · intro i j' hi e he
    by_cases hik : i = k
    · subst hik
      rw [Function.update_self] at he
      obtain ⟨a, b⟩ := e
      rcases BMap.mem_insert_of he with ⟨rfl, rfl⟩ | he
      · exact (hput _).mpr (.inl rfl)
      · exact (hput _).mpr (.inr (h.snaps i j' hi _ he))
    · rw [Function.update_of_ne hik] at he
      exact (hput _).mpr (.inr (h.snaps i j' hi _ he))
  · intro i j' hi hnp p cs hp hcs
    rw [(hal i).2] at hp
    exact h.mine i j' hi hnp p cs hp hcs
  · intro i j' hi hnp hidx
    rw [(hal i).1] at hidx
    exact h.waits i j' hi hnp hidx
  · rcases h.phase with h1 | ⟨i0, j0, n, x0, h1⟩
    · refine .inl ⟨fun i j' hi hp => by rw [(hal i).1]; exact h1.unpruned i j' hi hp,
        h1.basePacks, h1.base, h1.above, h1.origin, ?_, ?_, h1.starts, h1.since⟩
      · intro i j' hi e he
        rw [(hal i).2] at he
        exact h1.packs i j' hi e he
      · intro i j' hi e he
        rw [(hal i).1] at he
        exact h1.indexes i j' hi e he
    · refine .inr ⟨i0, j0, n, x0, h1.job, h1.index, by rw [(hal i0).1]; exact h1.stored, h1.there, h1.origin, ?_⟩
      intro i j' hi p y hp
      rw [(hal i).1] at hp
      exact h1.kept i j' hi p y hp

/-- A backup's index is stored. -/
theorem Core.index (hU : Apart ids U X S) (h : Core C ids U X S R0 J R alone) (hd : NewApart J)
    (hadd : ∀ k j, J k = some j → ¬ isPrune j → Adds C ids cores U X S R0 j)
    {k : ι} {j : Job Id} (hk : J k = some j) (hnp : ¬ isPrune j) {i : Id} {x : Index Id}
    {news : List (Id × Pack Id)} (hal : (alone k).indexes = j.w.repo.indexes)
    (hi : i = ids.indexId x) (hnm : ∀ p bs, (p, bs) ∈ (alone k).packs → Good (own ids cores j) p bs)
    (hn : NewIndex (own ids cores j) j.w.repo (putItem (alone k) (.index i x)) (sends j.main) x news) :
    Core C ids U X S R0 J (putItem R (.index i x)) (Function.update alone k (putItem (alone k) (.index i x))) := by
  have hA := hadd k j hk hnp
  have hX : X x := hA.indexes x hn.writes
  have hsup : x.supersedes = [] := hn.sup.trans hA.sup
  have hput : ∀ e, e ∈ (putItem R (.index i x)).indexes ↔ e = (i, x) ∨ e ∈ R.indexes :=
    mem_put h.sound.indexes_sorted (fun v hv => hU.indexes _ _ (h.known.indexes _ _ hv).2 hX
      ((h.known.indexes _ _ hv).1.symm.trans hi))
  have hids : ∀ q mf e, (q, mf) ∈ x.packs → e ∈ mf → e.id ∈ gives j := fun q mf e h1 h2 => index_ids hn h1 h2
  obtain ⟨hled, _⟩ := index_packs (R' := putItem (alone k) (.index i x)) hA.run.inj hA.ledger hA.fresh hnm hn
  have hthere : ∀ q bs, (q, bs) ∈ (alone k).packs → (q, Pack.manifestOf bs) ∈ x.packs → (q, bs) ∈ R.packs := by
    intro q bs h1 h2
    exact h.mine k j hk hnp q bs h1 (fun b hb => hids q _ (Pack.entryOf b) h2 (List.mem_map.mpr ⟨b, hb, rfl⟩))
  have hss : ∀ l, Superseded (putItem R (.index i x)).indexes l ↔ Superseded R.indexes l := by
    intro l
    constructor
    · rintro ⟨a, y, h1, h2⟩
      rcases (hput _).mp h1 with h3 | h3
      · cases h3; rw [hsup] at h2; cases h2
      · exact ⟨a, y, h3, h2⟩
    · rintro ⟨a, y, h1, h2⟩
      exact ⟨a, y, (hput _).mpr (.inr h1), h2⟩
  have hlist : ∀ q mf, Listed (putItem R (.index i x)).indexes q mf → Listed R.indexes q mf ∨ (q, mf) ∈ x.packs := by
    rintro q mf ⟨a, y, ⟨h1, h2⟩, h3⟩
    rcases (hput _).mp h1 with h4 | h4
    · cases h4; exact .inr h3
    · exact .inl ⟨a, y, ⟨h4, fun h5 => h2 ((hss a).mpr h5)⟩, h3⟩
  have hwait := h.waits k j hk hnp hal
  have hsafe := hA.safe x hn.writes
  rw [← hi] at hsafe
  have hmade : Made ids R0 J i x := ⟨hsup, hsafe, k, j, hk, hnp, hids⟩
  have hals : ∀ l, (Function.update alone k (putItem (alone k) (.index i x)) l).packs = (alone l).packs ∧
      (Function.update alone k (putItem (alone k) (.index i x)) l).snapshots = (alone l).snapshots ∧
      (∀ e ∈ (Function.update alone k (putItem (alone k) (.index i x)) l).indexes,
        e = (i, x) ∨ e ∈ (alone l).indexes) := by
    intro l
    by_cases hl : l = k
    · subst hl
      rw [Function.update_self]
      refine ⟨rfl, rfl, ?_⟩
      rintro ⟨a, y⟩ he
      rcases BMap.mem_insert_of he with ⟨rfl, rfl⟩ | he
      · exact .inl rfl
      · exact .inr he
    · rw [Function.update_of_ne hl]
      exact ⟨rfl, rfl, fun e he => .inr he⟩
  have hother : ∀ l, l ≠ k → Function.update alone k (putItem (alone k) (.index i x)) l = alone l :=
    fun l hl => Function.update_of_ne hl ..
  refine ⟨⟨h.known.packs, ?_, h.known.snaps⟩, ?_, h.ssort, ?_, h.snaps0, ?_, ?_, ?_, ?_⟩
  · intro a y ha
    rcases (hput _).mp ha with h1 | h1
    · cases h1; exact ⟨hi, hX⟩
    · exact h.known.indexes _ _ h1
  · have hL2 : Ledger C (fun q bs => (q, Pack.manifestOf bs) ∈ x.packs ∧ (q, bs) ∈ R.packs) := by
      refine hled.mono ?_
      rintro q bs ⟨h1, h2⟩
      obtain ⟨cs, h3, h4⟩ := hn.there _ _ h1
      have h5 : (q, cs) ∈ (alone k).packs := h3
      have : cs = bs := h.sound.pack_one (hthere q cs h5 (by rw [h4]; exact h1)) h2
      subst this
      exact ⟨h1, h3⟩
    refine Ledger.sound ((ledger_union h.sound.ledger hL2 ?_ ?_).mono ?_) h.sound.packs_sorted
      (BMap.sorted_insert h.sound.indexes_sorted _ _) ?_
    · intro p bs bs' h1 h2
      exact h.sound.pack_one (h1.elim (·.2) (·.2)) (h2.elim (·.2) (·.2))
    · intro p bs p' bs' b b' h1 h2 hb hb' he
      exact hwait b'.id (hids p' _ (Pack.entryOf b') h2.1 (List.mem_map.mpr ⟨b', hb', rfl⟩)) p _ (Pack.entryOf b) h1.1
        (List.mem_map.mpr ⟨b, hb, rfl⟩) he
    · rintro p bs ⟨h1, h2⟩
      rcases hlist _ _ h1 with h3 | h3
      · exact .inl ⟨h3, h2⟩
      · exact .inr ⟨h3, h2⟩
    · intro p mf hl
      rcases hlist _ _ hl with h3 | h3
      · exact h.sound.present _ _ h3
      · obtain ⟨cs, h4, h5⟩ := hn.there _ _ h3
        have h6 : (p, cs) ∈ (alone k).packs := h4
        exact ⟨cs, hthere p cs h6 (by rw [h5]; exact h3), h5⟩
  · intro a y ha
    rcases (hput _).mp ha with h1 | h1
    · cases h1; exact hn.sorted
    · exact h.lists _ _ h1
  · intro l j' hl e he
    rw [(hals l).2.1] at he
    exact h.snaps l j' hl e he
  · intro l j' hl hnp' p cs hp hcs
    rw [(hals l).1] at hp
    exact h.mine l j' hl hnp' p cs hp hcs
  · intro l j' hl hnp' hidx y hy q mf e hq he hey
    by_cases hlk : l = k
    · subst hlk
      rw [hk] at hl
      cases hl
      rcases hlist q mf hq with h1 | h1
      · exact hwait y hy q mf e h1 he hey
      · rw [Function.update_self] at hidx
        have hin : (i, x) ∈ j.w.repo.indexes := by
          rw [← hidx]
          exact (BMap.mem_insert_iff (by rw [hal]; exact hA.run.world.isort)).mpr (.inl ⟨rfl, rfl⟩)
        have hlive := (hA.idx x hn.writes).1
        have hi' : (own ids cores j).ids.indexId x = i := hi.symm
        rw [hi'] at hlive
        exact hA.new e.id (hids q mf e h1 he) q mf e ⟨i, x, ⟨hin, hlive⟩, h1⟩ he rfl
    · rw [hother l hlk] at hidx
      rcases hlist q mf hq with h1 | h1
      · exact h.waits l j' hl hnp' hidx y hy q mf e h1 he hey
      · subst hey
        have h2 := hids q mf e h1 he
        exact hd k l j j' hk hl (fun e => hlk e.symm) e.id h2 (hA.new _ h2) hy ((hadd l j' hl hnp').new _ hy)
  · rcases h.phase with h1 | ⟨i0, j0, n, x0, h1⟩
    · refine .inl ⟨?_, h1.basePacks, fun e he => (hput e).mpr (.inr (h1.base e he)), h1.above, ?_, ?_, ?_, ?_, ?_⟩
      · intro l j' hl hp
        have hlk : l ≠ k := by rintro rfl; rw [hk] at hl; cases hl; exact hnp hp
        rw [hother l hlk]
        exact h1.unpruned l j' hl hp
      · intro a y ha
        rcases (hput _).mp ha with h2 | h2
        · cases h2; exact .inr hmade
        · exact h1.origin _ _ h2
      · intro l j' hl e he
        rw [(hals l).1] at he
        exact h1.packs l j' hl e he
      · intro l j' hl e he
        rcases (hals l).2.2 _ he with h2 | h2
        · exact (hput e).mpr (.inl h2)
        · exact (hput e).mpr (.inr (h1.indexes l j' hl e h2))
      · exact fun l j' hl e he => (hput e).mpr (.inr (h1.starts l j' hl e he))
      · intro l j' hl hp a y ha hnk q mf e hq he
        rcases (hput _).mp ha with h2 | h2
        · cases h2
          intro q' mf' e' h3 h4 h5
          exact hwait e.id (hids q mf e hq he) q' mf' e' (h1.listed hl h3) h4 h5
        · exact h1.since l j' hl hp a y h2 hnk q mf e hq he
    · refine .inr ⟨i0, j0, n, x0, h1.job, h1.index, ?_, (hput _).mpr (.inr h1.there), ?_, ?_⟩
      · have hlk : i0 ≠ k := by
          rintro rfl
          have := h1.job
          rw [hk] at this; cases this; exact hnp h1.index.prune
        rw [hother i0 hlk]
        exact h1.stored
      · intro a y ha
        rcases (hput _).mp ha with h2 | h2
        · cases h2; exact .inr (.inl hmade)
        · exact h1.origin _ _ h2
      · intro l j' hl p y hp hnk
        rcases (hals l).2.2 _ hp with h2 | h2
        · exact (hput _).mpr (.inl h2)
        · exact (hput _).mpr (.inr (h1.kept l j' hl p y h2 hnk))

/-- The prune's index is stored. -/
theorem Core.prune (hU : Apart ids U X S) (h : Core C ids U X S R0 J R alone) (hd : NewApart J)
    (hadd : ∀ k j, J k = some j → ¬ isPrune j → Adds C ids cores U X S R0 j)
    {k : ι} {j : Job Id} (hk : J k = some j) (hnp : isPrune j) (hP : Prunes C ids cores U X j) (hone : OnePrune J)
    {i : Id} {x : Index Id}
    {news : List (Id × Pack Id)} (hal : (alone k).indexes = j.w.repo.indexes)
    (hi : i = ids.indexId x) (hnm : ∀ p bs, (p, bs) ∈ (alone k).packs → Good (own ids cores j) p bs)
    (hn : NewIndex (own ids cores j) j.w.repo (putItem (alone k) (.index i x)) (sends j.main) x news) :
    Core C ids U X S R0 J (putItem R (.index i x)) (Function.update alone k (putItem (alone k) (.index i x))) := by
  have hX : X x := hP.indexes x hn.writes
  have hsup : x.supersedes = BMap.keys j.w.repo.indexes := hn.sup.trans hP.sup
  obtain ⟨hnew, hnsup⟩ := hP.idx x hn.writes
  have hi' : (own ids cores j).ids.indexId x = i := hi.symm
  rw [hi'] at hnew hnsup
  have hE : Early ids R0 J R alone := by
    rcases h.phase with h1 | ⟨i0, j0, n, x0, h1⟩
    · exact h1
    · have := hone i0 k j0 j h1.job hk h1.index.prune hnp
      subst this
      have h2 := h1.job
      rw [hk] at h2
      cases h2
      have h3 := h1.stored
      rw [hal] at h3
      exact absurd (BMap.mem_keys_of_mem h3) h1.index.new
  have hput : ∀ e, e ∈ (putItem R (.index i x)).indexes ↔ e = (i, x) ∨ e ∈ R.indexes :=
    mem_put h.sound.indexes_sorted (fun v hv => hU.indexes _ _ (h.known.indexes _ _ hv).2 hX
      ((h.known.indexes _ _ hv).1.symm.trans hi))
  have hids : ∀ q mf e, (q, mf) ∈ x.packs → e ∈ mf → e.id ∈ gives j := fun q mf e h1 h2 => index_ids hn h1 h2
  obtain ⟨hled, hall⟩ := index_packs (R' := putItem (alone k) (.index i x)) hP.run.inj hP.ledger hP.fresh hnm hn
  have hals : ∀ l, (Function.update alone k (putItem (alone k) (.index i x)) l).packs = (alone l).packs ∧
      (Function.update alone k (putItem (alone k) (.index i x)) l).snapshots = (alone l).snapshots ∧
      (∀ e ∈ (Function.update alone k (putItem (alone k) (.index i x)) l).indexes,
        e = (i, x) ∨ e ∈ (alone l).indexes) := by
    intro l
    by_cases hl : l = k
    · subst hl
      rw [Function.update_self]
      refine ⟨rfl, rfl, ?_⟩
      rintro ⟨a, y⟩ he
      rcases BMap.mem_insert_of he with ⟨rfl, rfl⟩ | he
      · exact .inl rfl
      · exact .inr he
    · rw [Function.update_of_ne hl]
      exact ⟨rfl, rfl, fun e he => .inr he⟩
  have hold : ∀ b, Has C R0 b → Has C j.w.repo b := by
    rintro b ⟨h1, q, bs, h2, h3, h4⟩
    obtain ⟨a1, a2, a3⟩ := hE.above k j hk
    exact ⟨h1, q, bs, listed_mono a2 a3 h2, a1 _ h3, h4⟩
  have hpruned : Pruned C ids U R0 j i x := by
    refine ⟨hnp, hnew, hnsup, hsup, (hE.above k j hk).2.1, (hE.above k j hk).2.2, hold, hP.apart _ x news hn, ?_⟩
    intro R' hR'
    refine hP.holds R' (fun b hb => ?_)
    obtain ⟨p, bs, h1, h2, h3⟩ := hall b hb
    have h4 : (p, bs) ∈ (alone k).packs := h2
    obtain ⟨g1, g2⟩ := hnm p bs h4
    exact hR' p bs b h1 g1 (hP.packs bs g2) h3
  have hL : Late C ids U R0 J (putItem R (.index i x)) (Function.update alone k (putItem (alone k) (.index i x)))
      k j i x := by
    refine ⟨hk, hpruned, ?_, (hput _).mpr (.inl rfl), ?_, ?_⟩
    · rw [Function.update_self]
      exact (BMap.mem_insert_iff (by rw [hal]; exact hP.run.world.isort)).mpr (.inl ⟨rfl, rfl⟩)
    · intro a y ha
      rcases (hput _).mp ha with h2 | h2
      · cases h2; exact .inr (.inr ⟨rfl, rfl⟩)
      · exact (hE.origin _ _ h2).imp_right .inl
    · intro l j' hl a y ha _
      rcases (hals l).2.2 _ ha with h2 | h2
      · exact (hput _).mpr (.inl h2)
      · exact (hput _).mpr (.inr (hE.indexes l j' hl _ h2))
  -- what is listed
  have hlist : ∀ q mf, Listed (putItem R (.index i x)).indexes q mf → (q, mf) ∈ x.packs ∨
      (Listed R.indexes q mf ∧ ∀ e ∈ mf, Unlisted j.w.repo e.id ∧
        ∃ l j', J l = some j' ∧ ¬ isPrune j' ∧ e.id ∈ gives j') := by
    intro q mf hl
    obtain ⟨a, y, h1, h2, h3⟩ := (hL.listed q mf).mp hl
    rcases (hput _).mp h1 with h4 | h4
    · cases h4; exact .inl h3
    · right
      rcases hE.origin a y h4 with h5 | ⟨h5, h6, l, j', h7, h8, h9⟩
      · exact absurd (BMap.mem_keys_of_mem ((hE.above k j hk).2.1 _ h5)) h2
      · refine ⟨⟨a, y, ⟨h4, fun h10 => h6 ((hE.sup a).mp h10)⟩, h3⟩, fun e he => ⟨?_, l, j', h7, h8, h9 q mf e h3 he⟩⟩
        exact hE.since k j hk hnp a y h4 h2 q mf e h3 he
  have hcross : ∀ y ∈ gives j, ∀ l j', J l = some j' → ¬ isPrune j' → y ∈ gives j' → ¬ Unlisted j.w.repo y := by
    intro y hy l j' hl hnp' hy' hun
    have : k ≠ l := by rintro rfl; rw [hk] at hl; cases hl; exact hnp' hnp
    exact hd k l j j' hk hl this y hy hun hy' ((hadd l j' hl hnp').new _ hy')
  have hthere : ∀ q bs, (q, bs) ∈ (alone k).packs → (q, bs) ∈ R.packs := fun q bs h1 => hE.packs k j hk _ h1
  refine ⟨⟨h.known.packs, ?_, h.known.snaps⟩, ?_, h.ssort, ?_, h.snaps0, ?_, ?_, ?_, .inr ⟨k, j, i, x, hL⟩⟩
  · intro a y ha
    rcases (hput _).mp ha with h1 | h1
    · cases h1; exact ⟨hi, hX⟩
    · exact h.known.indexes _ _ h1
  · have hL2 : Ledger C (fun q bs => (q, Pack.manifestOf bs) ∈ x.packs ∧ (q, bs) ∈ R.packs) := by
      refine hled.mono ?_
      rintro q bs ⟨h1, h2⟩
      obtain ⟨cs, h3, h4⟩ := hn.there _ _ h1
      have h5 : (q, cs) ∈ (alone k).packs := h3
      have : cs = bs := h.sound.pack_one (hthere q cs h5) h2
      subst this
      exact ⟨h1, h3⟩
    have hL1 : Ledger C (fun q bs => LivePack R q bs ∧ ∀ e ∈ Pack.manifestOf bs, Unlisted j.w.repo e.id ∧
        ∃ l j', J l = some j' ∧ ¬ isPrune j' ∧ e.id ∈ gives j') := h.sound.ledger.mono (fun _ _ h1 => h1.1)
    refine Ledger.sound ((ledger_union hL1 hL2 ?_ ?_).mono ?_) h.sound.packs_sorted
      (BMap.sorted_insert h.sound.indexes_sorted _ _) ?_
    · intro p bs bs' h1 h2
      exact h.sound.pack_one (h1.elim (·.1.2) (·.2)) (h2.elim (·.1.2) (·.2))
    · intro p bs p' bs' b b' h1 h2 hb hb' he
      obtain ⟨g1, l, j', g2, g3, g4⟩ := h1.2 (Pack.entryOf b) (List.mem_map.mpr ⟨b, hb, rfl⟩)
      have g5 := hids p' _ (Pack.entryOf b') h2.1 (List.mem_map.mpr ⟨b', hb', rfl⟩)
      have g6 : (Pack.entryOf b).id = (Pack.entryOf b').id := he
      rw [← g6] at g5
      exact hcross _ g5 l j' g2 g3 g4 g1
    · rintro p bs ⟨h1, h2⟩
      rcases hlist _ _ h1 with h3 | h3
      · exact .inr ⟨h3, h2⟩
      · exact .inl ⟨⟨h3.1, h2⟩, h3.2⟩
    · intro p mf hl
      rcases hlist _ _ hl with h3 | h3
      · obtain ⟨cs, h4, h5⟩ := hn.there _ _ h3
        have h6 : (p, cs) ∈ (alone k).packs := h4
        exact ⟨cs, hthere p cs h6, h5⟩
      · exact h.sound.present _ _ h3.1
  · intro a y ha
    rcases (hput _).mp ha with h1 | h1
    · cases h1; exact hn.sorted
    · exact h.lists _ _ h1
  · intro l j' hl e he
    rw [(hals l).2.1] at he
    exact h.snaps l j' hl e he
  · intro l j' hl hnp' p cs hp hcs
    rw [(hals l).1] at hp
    exact h.mine l j' hl hnp' p cs hp hcs
  · intro l j' hl hnp' hidx y hy q mf e hq he hey
    have hlk : l ≠ k := by rintro rfl; rw [hk] at hl; cases hl; exact hnp' hnp
    rw [Function.update_of_ne hlk] at hidx
    have hw := h.waits l j' hl hnp' hidx y hy
    rcases hlist q mf hq with h1 | h1
    · subst hey
      refine hcross _ (hids q mf e h1 he) l j' hl hnp' hy ?_
      intro q' mf' e' h2 h3
      exact hw q' mf' e' (hE.listed hk h2) h3
    · exact hw q mf e h1.1 he hey

/-- The prune removes an index it superseded. -/
theorem Core.rmIndex (h : Core C ids U X S R0 J R alone) {i0 : ι} {j0 : Job Id} {n : Id} {x0 : Index Id}
    (hL : Late C ids U R0 J R alone i0 j0 n x0) {l : Id} (hl : l ∈ BMap.keys j0.w.repo.indexes) :
    Core C ids U X S R0 J (applyPost ids R (.rmIndex l))
      (Function.update alone i0 (applyPost ids (alone i0) (.rmIndex l))) := by
  have hput : ∀ e, e ∈ (applyPost ids R (.rmIndex l)).indexes ↔ e.1 ≠ l ∧ e ∈ R.indexes := by
    rintro ⟨a, y⟩
    exact BMap.mem_erase_iff
  have hals : ∀ k, (Function.update alone i0 (applyPost ids (alone i0) (.rmIndex l)) k).packs = (alone k).packs ∧
      (Function.update alone i0 (applyPost ids (alone i0) (.rmIndex l)) k).snapshots = (alone k).snapshots ∧
      (∀ e ∈ (Function.update alone i0 (applyPost ids (alone i0) (.rmIndex l)) k).indexes, e ∈ (alone k).indexes) := by
    intro k
    by_cases hk : k = i0
    · subst hk
      rw [Function.update_self]
      exact ⟨rfl, rfl, fun e he => (BMap.mem_erase_iff.mp he).2⟩
    · rw [Function.update_of_ne hk]
      exact ⟨rfl, rfl, fun e he => he⟩
  have hnl : n ≠ l := by rintro rfl; exact hL.index.new hl
  have hL' : Late C ids U R0 J (applyPost ids R (.rmIndex l))
      (Function.update alone i0 (applyPost ids (alone i0) (.rmIndex l))) i0 j0 n x0 := by
    refine ⟨hL.job, hL.index, ?_, (hput _).mpr ⟨hnl, hL.there⟩,
      fun a y ha => hL.origin a y ((hput _).mp ha).2, ?_⟩
    · rw [Function.update_self]
      exact BMap.mem_erase_iff.mpr ⟨hnl, hL.stored⟩
    · intro k j hk a y ha hna
      refine (hput _).mpr ⟨?_, hL.kept k j hk a y ((hals k).2.2 _ ha) hna⟩
      rintro rfl
      exact hna hl
  have hlist : ∀ q mf, Listed (applyPost ids R (.rmIndex l)).indexes q mf ↔ Listed R.indexes q mf := by
    intro q mf
    rw [hL.listed, hL'.listed]
    constructor
    · rintro ⟨a, y, h1, h2, h3⟩
      exact ⟨a, y, ((hput _).mp h1).2, h2, h3⟩
    · rintro ⟨a, y, h1, h2, h3⟩
      refine ⟨a, y, (hput _).mpr ⟨?_, h1⟩, h2, h3⟩
      rintro rfl
      exact h2 hl
  refine ⟨⟨h.known.packs, fun a y ha => h.known.indexes a y ((hput _).mp ha).2, h.known.snaps⟩, ?_, h.ssort,
    fun a y ha => h.lists a y ((hput _).mp ha).2, h.snaps0, ?_, ?_, ?_, .inr ⟨i0, j0, n, x0, hL'⟩⟩
  · exact (h.sound.trim (R' := applyPost ids R (.rmIndex l)) h.sound.packs_sorted
      (BMap.sorted_erase h.sound.indexes_sorted l) hlist (fun e he => he) (fun _ _ _ h1 => h1)).1
  · intro k j hk e he
    rw [(hals k).2.1] at he
    exact h.snaps k j hk e he
  · intro k j hk hnp p cs hp hcs
    rw [(hals k).1] at hp
    exact h.mine k j hk hnp p cs hp hcs
  · intro k j hk hnp hidx y hy q mf e hq he
    have hki : k ≠ i0 := by
      rintro rfl
      have := hL.job
      rw [hk] at this
      cases this
      exact hnp hL.index.prune
    rw [Function.update_of_ne hki] at hidx
    exact h.waits k j hk hnp hidx y hy q mf e ((hlist q mf).mp hq) he

/-- The prune removes a pack. -/
theorem Core.rmPack (hcl : Clear ids U J) (h : Core C ids U X S R0 J R alone) {i0 : ι} {j0 : Job Id} {n : Id}
    {x0 : Index Id} (hL : Late C ids U R0 J R alone i0 j0 n x0) {l : Id} (hl : Post.rmPack l ∈ j0.posts) :
    Core C ids U X S R0 J (applyPost ids R (.rmPack l))
      (Function.update alone i0 (applyPost ids (alone i0) (.rmPack l))) := by
  have hput : ∀ e, e ∈ (applyPost ids R (.rmPack l)).packs ↔ e.1 ≠ l ∧ e ∈ R.packs := by
    rintro ⟨a, y⟩
    exact BMap.mem_erase_iff
  have hals : ∀ k, (Function.update alone i0 (applyPost ids (alone i0) (.rmPack l)) k).indexes = (alone k).indexes ∧
      (Function.update alone i0 (applyPost ids (alone i0) (.rmPack l)) k).snapshots = (alone k).snapshots := by
    intro k
    by_cases hk : k = i0
    · subst hk
      rw [Function.update_self]
      exact ⟨rfl, rfl⟩
    · rw [Function.update_of_ne hk]
      exact ⟨rfl, rfl⟩
  have hgone : ∀ q bs, (q, bs) ∈ R.packs → Listed R.indexes q (Pack.manifestOf bs) → q ≠ l := by
    rintro q bs hq hlist rfl
    obtain ⟨a, y, h1, h2, h3⟩ := (hL.listed _ _).mp hlist
    rcases hL.made h1 h2 with ⟨_, _, k, j, h4, h5, h6⟩ | ⟨rfl, rfl⟩
    · obtain ⟨g1, g2⟩ := h.known.packs _ _ hq
      refine hcl i0 k j0 j hL.job h4 hL.index.prune h5 bs g2
        (fun b hb => h6 q _ (Pack.entryOf b) h3 (List.mem_map.mpr ⟨b, hb, rfl⟩)) ?_
      rw [← g1]
      exact hl
    · exact hL.index.rmPack q hl (BMap.mem_keys_of_mem h3)
  refine ⟨⟨fun p bs hp => h.known.packs p bs ((hput _).mp hp).2, h.known.indexes, h.known.snaps⟩, ?_, h.ssort,
    h.lists, h.snaps0, ?_, ?_, ?_, .inr ⟨i0, j0, n, x0, hL.job, hL.index, ?_, hL.there, hL.origin, ?_⟩⟩
  · exact (h.sound.trim (R' := applyPost ids R (.rmPack l)) (BMap.sorted_erase h.sound.packs_sorted l)
      h.sound.indexes_sorted (fun _ _ => Iff.rfl) (fun e he => ((hput e).mp he).2)
      (fun p bs h1 h2 => (hput _).mpr ⟨hgone p bs h2 h1, h2⟩)).1
  · intro k j hk e he
    rw [(hals k).2] at he
    exact h.snaps k j hk e he
  · intro k j hk hnp p cs hp hcs
    have hki : k ≠ i0 := by
      rintro rfl
      have := hL.job
      rw [hk] at this
      cases this
      exact hnp hL.index.prune
    rw [Function.update_of_ne hki] at hp
    have hin := h.mine k j hk hnp p cs hp hcs
    refine (hput _).mpr ⟨?_, hin⟩
    rintro rfl
    obtain ⟨g1, g2⟩ := h.known.packs _ _ hin
    refine hcl i0 k j0 j hL.job hk hL.index.prune hnp cs g2 hcs ?_
    rw [← g1]
    exact hl
  · intro k j hk hnp hidx
    rw [(hals k).1] at hidx
    exact h.waits k j hk hnp hidx
  · rw [(hals i0).1]
    exact hL.stored
  · intro k j hk a y ha
    rw [(hals k).1] at ha
    exact hL.kept k j hk a y ha

omit [LinearOrder Id] in
theorem upd_job {k l : ι} {j j' : Job Id} (hn : J k = none) (h : Function.update J k (some j) l = some j') :
    (l = k ∧ j' = j) ∨ (l ≠ k ∧ J l = some j') := by
  rw [Function.update_apply] at h
  split at h
  · exact .inl ⟨‹_›, (Option.some.inj h).symm⟩
  · exact .inr ⟨‹_›, h⟩

theorem Made.mono {k : ι} {j : Job Id} (hn : J k = none) {i : Id} {x : Index Id} (h : Made ids R0 J i x) :
    Made ids R0 (Function.update J k (some j)) i x := by
  obtain ⟨h1, h2, l, j', h3, h4⟩ := h
  refine ⟨h1, h2, l, j', ?_, h4⟩
  rw [Function.update_of_ne (by rintro rfl; rw [hn] at h3; cases h3)]
  exact h3

/-- A process starts. -/
theorem Core.start (h : Core C ids U X S R0 J R alone) {k : ι} {j : Job Id} (hn : J k = none) (hw : j.w.repo = R)
    (hadd : ¬ isPrune j → ∀ x ∈ gives j, Unlisted R x) :
    Core C ids U X S R0 (Function.update J k (some j)) R (Function.update alone k R) := by
  have hne : ∀ {l : ι} {j' : Job Id}, J l = some j' → l ≠ k := by rintro l j' hl rfl; rw [hn] at hl; cases hl
  refine ⟨h.known, h.sound, h.ssort, h.lists, h.snaps0, ?_, ?_, ?_, ?_⟩
  · intro l j' hl e he
    rcases upd_job hn hl with ⟨rfl, rfl⟩ | ⟨h1, hl⟩
    · rwa [Function.update_self] at he
    · rw [Function.update_of_ne h1] at he
      exact h.snaps l j' hl e he
  · intro l j' hl hnp p cs hp hcs
    rcases upd_job hn hl with ⟨rfl, rfl⟩ | ⟨h1, hl⟩
    · rwa [Function.update_self] at hp
    · rw [Function.update_of_ne h1] at hp
      exact h.mine l j' hl hnp p cs hp hcs
  · intro l j' hl hnp hidx
    rcases upd_job hn hl with ⟨rfl, rfl⟩ | ⟨h1, hl⟩
    · exact hadd hnp
    · rw [Function.update_of_ne h1] at hidx
      exact h.waits l j' hl hnp hidx
  · rcases h.phase with h1 | ⟨i0, j0, n, x0, h1⟩
    · refine .inl ⟨?_, h1.basePacks, h1.base, ?_, fun a y ha => (h1.origin a y ha).imp_right (Made.mono hn), ?_, ?_, ?_, ?_⟩
      · intro l j' hl hp
        rcases upd_job hn hl with ⟨rfl, rfl⟩ | ⟨h2, hl⟩
        · rw [Function.update_self, hw]
        · rw [Function.update_of_ne h2]
          exact h1.unpruned l j' hl hp
      · intro l j' hl
        rcases upd_job hn hl with ⟨rfl, rfl⟩ | ⟨h2, hl⟩
        · rw [hw]
          exact ⟨h1.basePacks, h1.base, fun i hi => (h1.sup i).mp hi⟩
        · exact h1.above l j' hl
      · intro l j' hl e he
        rcases upd_job hn hl with ⟨rfl, rfl⟩ | ⟨h2, hl⟩
        · rwa [Function.update_self] at he
        · rw [Function.update_of_ne h2] at he
          exact h1.packs l j' hl e he
      · intro l j' hl e he
        rcases upd_job hn hl with ⟨rfl, rfl⟩ | ⟨h2, hl⟩
        · rwa [Function.update_self] at he
        · rw [Function.update_of_ne h2] at he
          exact h1.indexes l j' hl e he
      · intro l j' hl e he
        rcases upd_job hn hl with ⟨rfl, rfl⟩ | ⟨h2, hl⟩
        · rwa [hw] at he
        · exact h1.starts l j' hl e he
      · intro l j' hl hp a y ha hna
        rcases upd_job hn hl with ⟨rfl, rfl⟩ | ⟨h2, hl⟩
        · rw [hw] at hna
          exact absurd (BMap.mem_keys_of_mem ha) hna
        · exact h1.since l j' hl hp a y ha hna
    · refine .inr ⟨i0, j0, n, x0, ?_, h1.index, ?_, h1.there,
        fun a y ha => (h1.origin a y ha).imp_right (Or.imp_left (Made.mono hn)), ?_⟩
      · rw [Function.update_of_ne (hne h1.job)]
        exact h1.job
      · rw [Function.update_of_ne (hne h1.job)]
        exact h1.stored
      · intro l j' hl a y ha hna
        rcases upd_job hn hl with ⟨rfl, rfl⟩ | ⟨h2, hl⟩
        · rwa [Function.update_self] at ha
        · rw [Function.update_of_ne h2] at ha
          exact h1.kept l j' hl a y ha hna

/-! ## Runs of all of them -/

/-- What is known of a process that has started, and of what the repository would hold had it run alone. -/
structure Runs (C : Codec Id) (ids : Ids Id) (cores : Nat) (U : Pack Id → Prop) (X : Index Id → Prop)
    (S : Snapshot Id → Prop) (R0 : Repo Id) (p : Proc Id) (A : Repo Id) : Prop where
  adds : ¬ isPrune p.job → Adds C ids cores U X S R0 p.job
  prunes : isPrune p.job → Prunes C ids cores U X p.job
  run : ∃ r done, p.job.posts = done ++ p.left ∧ Reachable p.job.c p.job.w p.job.main (p.s.on r) ∧
    (done ≠ [] → p.s.joined = true) ∧ A = done.foldl (applyPost ids) r

theorem Runs.base {p : Proc Id} {A : Repo Id} (h : Runs C ids cores U X S R0 p A) : Base C ids cores U X p.job := by
  by_cases hp : isPrune p.job
  · exact (h.prunes hp).toBase
  · exact (h.adds hp).toBase

/-- The jobs of the processes. -/
def jobs (m : Shared ι Id) (k : ι) : Option (Job Id) := (m.proc k).map Proc.job

omit [DecidableEq ι] in
theorem jobs_some {m : Shared ι Id} {k : ι} {j : Job Id} (h : jobs m k = some j) :
    ∃ p, m.proc k = some p ∧ p.job = j := Option.map_eq_some_iff.mp h

omit [DecidableEq ι] in
theorem jobs_of {m : Shared ι Id} {k : ι} {p : Proc Id} (h : m.proc k = some p) : jobs m k = some p.job := by
  unfold jobs; rw [h]; rfl

theorem jobs_same {m : Shared ι Id} {k : ι} {p p' : Proc Id} (h : m.proc k = some p) (hj : p'.job = p.job) (R : Repo Id) :
    jobs ⟨R, Function.update m.proc k (some p')⟩ = jobs m := by
  funext l
  unfold jobs
  by_cases hl : l = k
  · subst hl
    simp [h, hj]
  · simp [Function.update_of_ne hl]

theorem jobs_start {m : Shared ι Id} {k : ι} (p : Proc Id) (R : Repo Id) :
    jobs ⟨R, Function.update m.proc k (some p)⟩ = Function.update (jobs m) k (some p.job) := by
  funext l
  unfold jobs
  by_cases hl : l = k
  · subst hl
    simp
  · simp [Function.update_of_ne hl]

structure Inv (C : Codec Id) (ids : Ids Id) (cores : Nat) (U : Pack Id → Prop) (X : Index Id → Prop)
    (S : Snapshot Id → Prop) (R0 : Repo Id) (m : Shared ι Id) (alone : ι → Repo Id) : Prop where
  runs : ∀ k p, m.proc k = some p → Runs C ids cores U X S R0 p (alone k)
  core : Core C ids U X S R0 (jobs m) m.repo alone

/-- The repository is in good order but for the snapshots, some of which may need what is gone. -/
def Orderly (C : Codec Id) (ids : Ids Id) (R : Repo Id) : Prop := Healthy C ids { R with snapshots := [] }

omit [DecidableEq ι] in
theorem Core.orderly (h : Core C ids U X S R0 J R alone) : Orderly C ids R := by
  have hs := h.sound
  exact ⟨hs.packs_sorted, hs.indexes_sorted, BMap.sorted_nil, fun p bs hp => (h.known.packs p bs hp).1,
    fun i x hi => (h.known.indexes i x hi).1, h.lists, hs.present, hs.distinct, hs.once, hs.one_kind, hs.hashes,
    hs.trees, hs.full, fun i s hi => (by cases hi)⟩

variable {may : Job Id → Prop}

/-- What is asked of the processes together. -/
structure Together (ids : Ids Id) (U : Pack Id → Prop) (m : Shared ι Id) : Prop where
  one : OnePrune (jobs m)
  apart : NewApart (jobs m)
  clear : Clear ids U (jobs m)

theorem Together.back {m m' : Shared ι Id} (hs : Shared.Step may m m') (h : Together ids U m') : Together ids U m := by
  have job : ∀ k j, jobs m k = some j → jobs m' k = some j := by
    intro k j hk
    cases hs with
    | start i j' h1 h2 h3 =>
      rw [jobs_start]
      have : k ≠ i := by
        rintro rfl
        obtain ⟨p, hp, _⟩ := jobs_some hk
        rw [h1] at hp; cases hp
      rwa [Function.update_of_ne this]
    | run i p t h1 h2 h3 => rwa [jobs_same (p' := { p with s := t }) h1 rfl]
    | post i p o rest h1 h2 h3 => rwa [jobs_same (p' := { p with left := rest }) h1 rfl]
  exact ⟨fun i k j j' h1 h2 => h.one i k j j' (job _ _ h1) (job _ _ h2),
    fun i k j j' h1 h2 => h.apart i k j j' (job _ _ h1) (job _ _ h2),
    fun i k j j' h1 h2 => h.clear i k j j' (job _ _ h1) (job _ _ h2)⟩

theorem inv_step (hU : Apart ids U X S)
    (hmay : ∀ j, may j → Orderly C ids j.w.repo → Known ids U X S j.w.repo →
      (¬ isPrune j → Adds C ids cores U X S R0 j) ∧ (isPrune j → Prunes C ids cores U X j))
    {m m' : Shared ι Id} {alone : ι → Repo Id} (h : Inv C ids cores U X S R0 m alone) (ht : Together ids U m')
    (hs : Shared.Step may m m') : ∃ alone', Inv C ids cores U X S R0 m' alone' := by
  have ht0 := ht.back hs
  have hadds : ∀ k j, jobs m k = some j → ¬ isPrune j → Adds C ids cores U X S R0 j := by
    intro k j hk hnp
    obtain ⟨p, hp, rfl⟩ := jobs_some hk
    exact (h.runs k p hp).adds hnp
  have keep : ∀ {i : ι} {p p' : Proc Id} {A' R' : Repo Id}, m.proc i = some p → p'.job = p.job →
      Runs C ids cores U X S R0 p' A' → Core C ids U X S R0 (jobs m) R' (Function.update alone i A') →
      ∃ alone', Inv C ids cores U X S R0 ⟨R', Function.update m.proc i (some p')⟩ alone' := by
    intro i p p' A' R' hi hj hr hc
    refine ⟨Function.update alone i A', ?_, by rw [jobs_same hi hj]; exact hc⟩
    intro k q hk
    rcases C65.upd_some hk with ⟨rfl, rfl⟩ | ⟨hne, hk⟩
    · rw [Function.update_self]; exact hr
    · rw [Function.update_of_ne hne]; exact h.runs k q hk
  cases hs with
  | start i j h1 h2 h3 =>
    have ho : Orderly C ids j.w.repo := by rw [h2]; exact h.core.orderly
    have hk : Known ids U X S j.w.repo := by rw [h2]; exact h.core.known
    obtain ⟨g1, g2⟩ := hmay j h3 ho hk
    have hn : jobs m i = none := by unfold jobs; rw [h1]; rfl
    refine ⟨Function.update alone i m.repo, ?_, ?_⟩
    · intro k q hk
      rcases C65.upd_some hk with ⟨rfl, rfl⟩ | ⟨hne, hk⟩
      · rw [Function.update_self]
        refine ⟨g1, g2, m.repo, [], rfl, ?_, by simp, rfl⟩
        have : (init j.c j.w j.main).on m.repo = init j.c j.w j.main := by rw [← h2]; rfl
        simp only [this]
        exact .refl
      · rw [Function.update_of_ne hne]
        exact h.runs k q hk
    · rw [jobs_start]
      exact h.core.start hn h2 (fun hnp x hx => by rw [← h2]; exact (g1 hnp).new x hx)
  | run i p t h1 h2 h3 =>
    obtain ⟨o, f1, f2, f3⟩ := step_frame h3
    rw [on_repo] at f1
    have hR := h.runs i p h1
    have hB := hR.base
    obtain ⟨r, done, e1, e2, e3, e4⟩ := hR.run
    have hdone : done = [] := by
      by_contra hne
      rw [e3 hne] at h2
      cases h2
    subst hdone
    rw [List.foldl_nil] at e4
    have e2' : Reachable p.job.c p.job.w p.job.main (t.on (puts r o)) := .tail e2 (f3 r)
    have hR' : Runs C ids cores U X S R0 { p with s := t } (puts r o) :=
      ⟨hR.adds, hR.prunes, puts r o, [], e1, e2', by simp, rfl⟩
    have hs0 := hB.reach e2
    have hs1 := hB.reach e2'
    have hji := jobs_of h1
    rw [f1]
    cases o with
    | none =>
      refine keep h1 rfl hR' ?_
      have : Function.update alone i (puts r none) = alone := by
        show Function.update alone i r = alone
        rw [← e4, Function.update_eq_self]
      rw [this]
      exact h.core
    | some it =>
      obtain ⟨u1, u2, u3⟩ := f2 it rfl
      refine keep h1 rfl hR' ?_
      have heq : puts r (some it) = putItem (alone i) it := by rw [e4]; rfl
      rw [heq]
      have hnm : ∀ q bs, (q, bs) ∈ (alone i).packs → Good (own ids cores p.job) q bs := by
        intro q bs hq
        rw [e4] at hq
        exact (effect hB.run hs0).names q bs hq
      cases it with
      | pack q bs =>
        have hin : (q, bs) ∈ (t.on (puts r (some (.pack q bs)))).world.repo.packs :=
          (BMap.mem_insert_iff (effect hB.run hs0).psort).mpr (.inl ⟨rfl, rfl⟩)
        obtain ⟨a1, a2⟩ := hB.named hs1 hin
        exact h.core.pack hU hji a1 a2
      | index q x =>
        obtain ⟨b1, b2, news, b3⟩ := hB.stores hs0 hs1 (i := q) (x := x) u1 u2 u3
        rw [on_repo, heq] at b3
        have b1' : (alone i).indexes = p.job.w.repo.indexes := by rw [e4]; exact b1
        by_cases hp : isPrune p.job
        · exact h.core.prune hU ht0.apart hadds hji hp (hR.prunes hp) ht0.one b1' b2 hnm b3
        · exact h.core.index hU ht0.apart hadds hji hp b1' b2 hnm b3
  | post i p o rest h1 h2 h3 =>
    have hR := h.runs i p h1
    have hB := hR.base
    obtain ⟨r, done, e1, e2, e3, e4⟩ := hR.run
    have hids : p.job.c.ids = ids := by rw [hB.live]; rfl
    have hmem : o ∈ p.job.posts := by rw [e1, h3]; simp
    have hR' : Runs C ids cores U X S R0 { p with left := rest } (applyPost ids (alone i) o) :=
      ⟨hR.adds, hR.prunes, r, done ++ [o], by rw [e1, h3]; simp, e2, fun _ => h2,
        by rw [e4, List.foldl_append]; rfl⟩
    refine keep h1 rfl hR' ?_
    have hji := jobs_of h1
    rw [hids]
    by_cases hp : isPrune p.job
    · have hP := hR.prunes hp
      -- its index has been stored
      obtain ⟨e, he, hne⟩ := hP.joined _ (hB.reach e2) h2
      have hal : e ∈ (alone i).indexes := by
        rw [e4]
        have hd : ∀ o ∈ done, (∃ l ∈ BMap.keys p.job.w.repo.indexes, o = .rmIndex l) ∨ ∃ q, o = .rmPack q :=
          fun o ho => hP.posts o (by rw [e1]; exact List.mem_append_left _ ho)
        clear e4 e1 e3 hR'
        rw [on_repo] at he
        clear e2
        induction done generalizing r with
        | nil => exact he
        | cons a l ih =>
          rw [List.foldl_cons]
          refine ih _ ?_ (fun o ho => hd o (List.mem_cons_of_mem _ ho))
          rcases hd a List.mem_cons_self with ⟨k, hk, rfl⟩ | ⟨q, rfl⟩
          · refine BMap.mem_erase_iff.mpr ⟨?_, he⟩
            intro h4
            exact hne (by rw [h4]; exact hk)
          · exact he
      rcases h.core.phase with hE | ⟨i0, j0, n, x0, hL⟩
      · rw [hE.unpruned i _ hji hp] at hal
        exact absurd (BMap.mem_keys_of_mem (k := e.1) (v := e.2) hal) hne
      · have := ht0.one i0 i j0 p.job hL.job hji hL.index.prune hp
        subst this
        have h4 := hL.job
        rw [hji] at h4
        cases h4
        rcases hP.posts o hmem with ⟨l, hl, rfl⟩ | ⟨q, rfl⟩
        · exact h.core.rmIndex hL hl
        · exact h.core.rmPack ht0.clear hL hmem
    · obtain ⟨sn, rfl, hsn⟩ := (hR.adds hp).posts o hmem
      exact h.core.snap hU hji hsn

theorem inv (hU : Apart ids U X S) (hH : Orderly C ids R0) (hK : Known ids U X S R0)
    (hss : BMap.Sorted R0.snapshots)
    (hmay : ∀ j, may j → Orderly C ids j.w.repo → Known ids U X S j.w.repo →
      (¬ isPrune j → Adds C ids cores U X S R0 j) ∧ (isPrune j → Prunes C ids cores U X j))
    {m : Shared ι Id} (h : Shared.Reachable may R0 m) (ht : Together ids U m) :
    ∃ alone, Inv C ids cores U X S R0 m alone := by
  induction h with
  | refl =>
    refine ⟨fun _ => R0, by simp, hK, ?_, hss, hH.index_packs, fun e he => he, ?_, ?_, ?_, .inl ?_⟩
    · exact ⟨hH.packs_sorted, hH.indexes_sorted, hH.present, hH.distinct, hH.once, hH.one_kind, hH.hashes, hH.trees,
        hH.full⟩
    · intro k j hk; cases hk
    · intro k j hk; cases hk
    · intro k j hk; cases hk
    · exact ⟨fun k j hk => (by cases hk), fun e he => he, fun e he => he, fun k j hk => (by cases hk),
        fun i x hx => .inl hx, fun k j hk => (by cases hk), fun k j hk => (by cases hk), fun k j hk => (by cases hk),
        fun k j hk => (by cases hk)⟩
  | tail _ hs ih =>
    obtain ⟨alone, hi⟩ := ih (ht.back hs)
    exact inv_step hU hmay hi ht hs

/-! ## What can be read -/

omit [DecidableEq ι] in
/-- Every blob of a listed pack can be found. -/
theorem Core.has (hU : Apart ids U X S) (h : Core C ids U X S R0 J R alone) {q : Id} {bs : Pack Id} {b : Blob Id}
    (hl : Listed R.indexes q (Pack.manifestOf bs)) (hbs : U bs) (hb : b ∈ bs) : Has C R b := by
  obtain ⟨cs, h1, h2⟩ := h.sound.present _ _ hl
  have : cs = bs := hU.packs _ _ (h.known.packs _ _ h1).2 hbs (by rw [h2])
  subst this
  exact (h.sound.has_iff b).mpr ⟨q, cs, hl, h1, hb⟩

theorem Base.involved (h : Base C ids cores U X j) {q : Id} {bs : Pack Id} (hq : (q, bs) ∈ j.w.repo.packs) : U bs :=
  h.packs bs (.inl ⟨q, hq⟩)

variable {m : Shared ι Id}

omit [DecidableEq ι] in
/-- What was there at first can be read. -/
theorem Inv.first (hU : Apart ids U X S) (hK : Known ids U X S R0) (h : Inv C ids cores U X S R0 m alone)
    {i : Id} {sn : Snapshot Id} (hi : (i, sn) ∈ R0.snapshots) (hi' : ∀ k p, m.proc k = some p →
      (i, sn) ∈ p.job.w.repo.snapshots) {d : Dir Bytes} (hd : Holds C R0 sn.tree d) :
    (i, sn) ∈ m.repo.snapshots ∧ Holds C m.repo sn.tree d := by
  refine ⟨h.core.snaps0 _ hi, ?_⟩
  rcases h.core.phase with hE | ⟨i0, j0, n, x0, hL⟩
  · refine has_mono_holds ?_ hd
    rintro b ⟨_, q, bs, h2, h3, h4⟩
    exact h.core.has hU (listed_mono hE.base (fun k hk => (hE.sup k).mp hk) h2) (hK.packs _ _ h3).2 h4
  · obtain ⟨p, hp, rfl⟩ := jobs_some hL.job
    refine hL.index.holds m.repo ?_ i sn d (hi' i0 p hp) (has_mono_holds hL.index.older hd)
    intro q bs b h1 _ h3 h4
    exact h.core.has hU ((hL.listed _ _).mpr ⟨n, x0, hL.there, hL.index.new, h1⟩) h3 h4

omit [DecidableEq ι] in
/-- What was there when the prune began can be read. -/
theorem Inv.before (hU : Apart ids U X S) (h : Inv C ids cores U X S R0 m alone) (ht : OnePrune (jobs m))
    {k : ι} {p : Proc Id} (hk : m.proc k = some p) (hp : isPrune p.job)
    {i : Id} {sn : Snapshot Id} (hi : (i, sn) ∈ p.job.w.repo.snapshots) {d : Dir Bytes}
    (hd : Holds C p.job.w.repo sn.tree d) : Holds C m.repo sn.tree d := by
  have hB := (h.runs k p hk).base
  have hj := jobs_of hk
  rcases h.core.phase with hE | ⟨i0, j0, n, x0, hL⟩
  · refine has_mono_holds ?_ hd
    rintro b ⟨_, q, bs, h2, h3, h4⟩
    exact h.core.has hU (hE.listed hj h2) (hB.involved h3) h4
  · have := ht i0 k j0 _ hL.job hj hL.index.prune hp
    subst this
    have h4 := hL.job
    rw [hj] at h4
    cases h4
    refine hL.index.holds m.repo ?_ i sn d hi hd
    intro q bs b h1 _ h3 h4
    exact h.core.has hU ((hL.listed _ _).mpr ⟨n, x0, hL.there, hL.index.new, h1⟩) h3 h4

/-- The snapshots that were there when a process began are there. -/
theorem Inv.stay (hU : Apart ids U X S) (h : Inv C ids cores U X S R0 m alone) {k : ι} {p : Proc Id}
    (hk : m.proc k = some p) (hK : Known ids U X S p.job.w.repo) (hs : BMap.Sorted p.job.w.repo.snapshots) :
    ∀ e ∈ p.job.w.repo.snapshots, e ∈ m.repo.snapshots := by
  intro e he
  have hR := h.runs k p hk
  have hB := hR.base
  obtain ⟨r, done, e1, e2, e3, e4⟩ := hR.run
  refine h.core.snaps k _ (jobs_of hk) e ?_
  have hr := (effect hB.run (hB.reach e2)).snaps
  rw [on_repo] at hr
  have key : ∀ (l : List (Post Id)) (A : Repo Id), BMap.Sorted A.snapshots →
      (∀ i s, (i, s) ∈ A.snapshots → i = ids.snapId s ∧ S s) → (∀ o ∈ l, ∀ sn, o = .putSnap sn → S sn) →
      e ∈ A.snapshots → e ∈ (l.foldl (applyPost ids) A).snapshots := by
    intro l
    induction l with
    | nil => exact fun A _ _ _ h => h
    | cons o l ih =>
      intro A hA hN hl hin
      rw [List.foldl_cons]
      have hl' : ∀ o ∈ l, ∀ sn, o = .putSnap sn → S sn := fun o ho => hl o (List.mem_cons_of_mem _ ho)
      cases o with
      | putSnap sn =>
        have hsn := hl _ List.mem_cons_self sn rfl
        refine ih _ (BMap.sorted_insert hA _ _) ?_ hl' ?_
        · intro i s hi
          rcases BMap.mem_insert_of hi with ⟨rfl, rfl⟩ | hi
          · exact ⟨rfl, hsn⟩
          · exact hN i s hi
        · exact (mem_put hA (fun v hv => hU.snaps _ _ (hN _ _ hv).2 hsn (hN _ _ hv).1.symm) e).mpr (.inr hin)
      | rmIndex _ => exact ih _ hA hN hl' hin
      | rmPack _ => exact ih _ hA hN hl' hin
  rw [e4]
  refine key done r (by rw [hr]; exact hs) (by rw [hr]; exact hK.snaps) ?_ (by rw [hr]; exact he)
  rintro o ho sn rfl
  have hmem : Post.putSnap sn ∈ p.job.posts := by rw [e1]; exact List.mem_append_left _ ho
  by_cases hp : isPrune p.job
  · rcases (hR.prunes hp).posts _ hmem with ⟨_, _, h1⟩ | ⟨_, h1⟩ <;> cases h1
  · obtain ⟨sn', h1, h2⟩ := (hR.adds hp).posts _ hmem
    cases h1
    exact h2

omit [DecidableEq ι] in
/-- What a backup would find had it run alone can be found, unless the prune's index has been stored since it began. -/
theorem Inv.unpruned (hU : Apart ids U X S) (h : Inv C ids cores U X S R0 m alone) {k : ι} {p : Proc Id}
    (hk : m.proc k = some p) (hp : ¬ isPrune p.job)
    (hn : ∀ e ∈ m.repo.indexes, e.2.supersedes ≠ [] → e ∈ p.job.w.repo.indexes) {r : Repo Id}
    (hr : Reachable p.job.c p.job.w p.job.main (p.s.on r)) (hidx : (alone k).indexes = r.indexes)
    {b : Blob Id} (hb : Has C r b) : Has C m.repo b := by
  have hA := (h.runs k p hk).adds hp
  have hj := jobs_of hk
  have hreach := hA.reach hr
  have he := effect hA.run hreach
  have hkeep : ∀ e ∈ p.job.w.repo.indexes, e ∈ r.indexes := by
    intro e hin
    rcases he.idx with h1 | ⟨x, news, h1⟩
    · rw [on_repo] at h1; rw [h1]; exact hin
    · have h2 := h1.put
      rw [on_repo] at h2
      rw [h2]
      exact (mem_put hA.run.world.isort (fun v hv => (hA.idx x h1.writes).2.1 v hv) e).mpr (.inr hin)
  obtain ⟨h1, q, bs, h2, h3, h4⟩ := hb
  have hbs : U bs := (hA.named hreach h3).2
  refine h.core.has (q := q) hU ?_ hbs h4
  rcases h.core.phase with hE | ⟨i0, j0, n, x0, hL⟩
  · refine listed_mono (f := r.indexes) ?_ ?_ h2
    · rw [← hidx]; exact hE.indexes k _ hj
    · intro l hl
      obtain ⟨a, y, g1, g2⟩ := (hE.sup l).mp hl
      exact ⟨a, y, hkeep _ ((hE.above k _ hj).2.1 _ g1), g2⟩
  · have hin : (n, x0) ∈ p.job.w.repo.indexes :=
      hn _ hL.there (by rw [show ((n, x0) : Id × Index Id).2 = x0 from rfl, hL.index.sup]
                        intro h5
                        have h6 := hL.index.prune
                        obtain ⟨p0, g1, rfl⟩ := jobs_some hL.job
                        have := ((h.runs i0 p0 g1).prunes h6).some
                        exact this h5)
    obtain ⟨i, x, ⟨g1, g2⟩, g3⟩ := h2
    have hi : i ∉ BMap.keys j0.w.repo.indexes := by
      intro hi
      exact g2 ⟨n, x0, hkeep _ hin, by rw [hL.index.sup]; exact hi⟩
    exact (hL.listed _ _).mpr ⟨i, x, hL.kept k _ hj i x (by rw [hidx]; exact g1) hi, hi, g3⟩

/-- What a backup adds can be found, unless the prune found it listed and so did not keep it. -/
theorem Inv.added (hU : Apart ids U X S) (h : Inv C ids cores U X S R0 m alone) {k : ι} {p : Proc Id}
    (hk : m.proc k = some p) (hp : ¬ isPrune p.job) (hK : Known ids U X S p.job.w.repo) (hS : Sound C p.job.w.repo)
    (hn : ∀ i q, m.proc i = some q → isPrune q.job → Known ids U X S q.job.w.repo ∧
      ∀ x ∈ gives p.job, Unlisted q.job.w.repo x) {r : Repo Id}
    (hr : Reachable p.job.c p.job.w p.job.main (p.s.on r)) (hidx : (alone k).indexes = r.indexes)
    {b : Blob Id} (hb : Has C r b) : Has C p.job.w.repo b ∨ Has C m.repo b := by
  have hA := (h.runs k p hk).adds hp
  have hj := jobs_of hk
  have hreach := hA.reach hr
  have he := effect hA.run hreach
  obtain ⟨h1, q, bs, h2, h3, h4⟩ := hb
  have hbs : U bs := (hA.named hreach h3).2
  have same : Listed p.job.w.repo.indexes q (Pack.manifestOf bs) → Has C p.job.w.repo b := by
    intro hl
    obtain ⟨cs, g1, g2⟩ := hS.present _ _ hl
    have : cs = bs := hU.packs _ _ (hK.packs _ _ g1).2 hbs (by rw [g2])
    subst this
    exact ⟨h1, q, cs, hl, g1, h4⟩
  rcases he.idx with hi | ⟨x, news, hi⟩
  · rw [on_repo] at hi
    rw [hi] at h2
    exact .inl (same h2)
  have hput := hi.put
  rw [on_repo] at hput
  have hmem : ∀ e, e ∈ r.indexes ↔ e = (ids.indexId x, x) ∨ e ∈ p.job.w.repo.indexes := by
    rw [hput]
    exact mem_put hA.run.world.isort (fun v hv => (hA.idx x hi.writes).2.1 v hv)
  obtain ⟨a, y, ⟨g1, g2⟩, g3⟩ := h2
  rcases (hmem _).mp g1 with g4 | g4
  swap
  · refine .inl (same ⟨a, y, ⟨g4, ?_⟩, g3⟩)
    rintro ⟨c, z, g5, g6⟩
    exact g2 ⟨c, z, (hmem _).mpr (.inr g5), g6⟩
  cases g4
  have hgive : (Pack.entryOf b).id ∈ gives p.job := index_ids hi g3 (List.mem_map.mpr ⟨b, h4, rfl⟩)
  right
  refine h.core.has (q := q) hU ?_ hbs h4
  rcases h.core.phase with hE | ⟨i0, j0, n, x0, hL⟩
  · refine ⟨ids.indexId x, x, ⟨hE.indexes k _ hj _ (by rw [hidx]; exact g1), ?_⟩, g3⟩
    intro h5
    exact hA.safe x hi.writes ((hE.sup _).mp h5)
  · obtain ⟨p0, f1, rfl⟩ := jobs_some hL.job
    obtain ⟨f2, f3⟩ := hn i0 p0 f1 hL.index.prune
    have hni : ids.indexId x ∉ BMap.keys p0.job.w.repo.indexes := by
      intro hin
      obtain ⟨v, hv⟩ := BMap.mem_keys_iff.mp hin
      have hv := BMap.mem_of_get? hv
      have : v = x := hU.indexes _ _ (f2.indexes _ _ hv).2 (hA.indexes x hi.writes) (f2.indexes _ _ hv).1.symm
      subst this
      exact f3 _ hgive q _ (Pack.entryOf b) ⟨_, v, ⟨hv, fun h5 => hA.safe v hi.writes (hL.index.base _ h5)⟩, g3⟩
        (List.mem_map.mpr ⟨b, h4, rfl⟩) rfl
    exact (hL.listed _ _).mpr ⟨_, x, hL.kept k _ hj _ _ (by rw [hidx]; exact g1) hni, hni, g3⟩

/-! ## What a backup relies on -/

/-- Every chunk of every file is in use. -/
theorem rel_used {R : Repo Id} {PF : List Id → Bytes → Prop} {root : Id} {t : Tree Id} {d : Dir Bytes}
    (h : DirRel PF (TreeAt C R) t d)
    (ht : ∃ u t0, Reaches (TreeAt C R) root u ∧ TreeAt C R u t0 ∧ ∀ e ∈ t, e ∈ t0) :
    DirRel (fun cs x => PF cs x ∧ ∀ b, Has C R b → b.id ∈ cs → Used C R root b) (TreeAt C R) t d := by
  induction h with
  | nil => exact .nil
  | @file n cs md t x d h1 _ ih =>
    obtain ⟨u, t0, h2, h3, h4⟩ := ht
    refine .file ⟨h1, fun b hb hc => ⟨hb, u, t0, h2, h3, .inr ⟨n, cs, md, h4 _ List.mem_cons_self, hc⟩⟩⟩ (ih ?_)
    exact ⟨u, t0, h2, h3, fun e he => h4 e (List.mem_cons_of_mem _ he)⟩
  | link _ ih =>
    obtain ⟨u, t0, h2, h3, h4⟩ := ht
    exact .link (ih ⟨u, t0, h2, h3, fun e he => h4 e (List.mem_cons_of_mem _ he)⟩)
  | @dir n id md t t' sub d h0 _ _ ih1 ih2 =>
    obtain ⟨u, t0, h2, h3, h4⟩ := ht
    exact .dir h0 (ih1 ⟨id, t', reaches_sub h2 h3 ⟨n, md, h4 _ List.mem_cons_self⟩, h0, fun e he => he⟩)
      (ih2 ⟨u, t0, h2, h3, fun e he => h4 e (List.mem_cons_of_mem _ he)⟩)

theorem file_mono {R R' : Repo Id} {cs : List Id} {x : Bytes} (hf : FileHolds C R cs x)
    (h : ∀ b, Has C R b → b.id ∈ cs → Has C R' b) : FileHolds C R' cs x := by
  induction hf with
  | nil => exact .nil
  | cons h1 _ ih =>
    exact .cons (h _ h1 List.mem_cons_self) (ih fun b hb hc => h b hb (List.mem_cons_of_mem _ hc))

variable {cut : Bytes → Nat} {w : World Id} {src : Source Id} {snaps : List (Snap Id)} {a : BackupArgs}

/-- Files taken over from the parent are as they were, and made of chunks it uses. -/
theorem parent_used (hB : BackupRuns C cut ids w src snaps a) {F : Forest Id}
    (hF : parentForest C src (parentSnapshot a.paths snaps) = .ok F) :
    Reuse (fun cs x => (FileHolds C w.repo cs x ∧ cs.length < 2 ^ 64) ∧ ∀ b, Has C w.repo b → b.id ∈ cs →
        ∃ p, parentSnapshot a.paths snaps = some p ∧ Used C w.repo p.tree b) F
      (((parentSnapshot a.paths snaps).map (·.tree)).bind (fun id => F.get? id))
      (keep a.filter a.pathOf a.fs) := by
  cases hp : parentSnapshot a.paths snaps with
  | none => exact reuse_none _ _ _
  | some p =>
    rw [hp] at hF
    unfold parentForest at hF
    simp only at hF
    cases hf : forestFromRoot C src p.tree (newTreeCache C) with
    | error e => rw [hf] at hF; cases hF
    | ok r =>
      rw [hf] at hF
      obtain ⟨f, cache⟩ := r
      have hF : f = F := by cases hF; rfl
      subst hF
      have hex := C23.forest_exact hB.sound hB.opens p.tree (newTreeCache C) f cache
        newTreeCache_ok hf
      obtain ⟨d0, t0, ht0, hd0⟩ := hB.readable p hp
      refine reuse_of_faithful _ _ d0 ?_ (hB.faithful p d0 hp ⟨t0, ht0, hd0⟩)
      intro t ht
      simp only [Option.map_some, Option.bind_some] at ht
      have : t = t0 := hB.sound.treeAt_one ((hex _ _).mp ht).2 ht0
      subst this
      have h1 := rel_used (root := p.tree) (holds_bounded hd0 (fun n x hx => ht0.1.contents _ hx))
        ⟨p.tree, t, .refl, ht0, fun e he => he⟩
      refine rel_in_forest (fun id t h1 h2 => (hex id t).mpr ⟨h1, h2⟩) (h1.mono ?_ (fun _ _ h => h))
        (fun x hx => reaches_sub .refl ht0 hx)
      exact fun cs x h2 => ⟨h2.1, fun b hb hc => ⟨p, rfl, h2.2 b hb hc⟩⟩

/-- With every blob found, the root stands for the file tree. -/
theorem root_used (hB : BackupRuns C cut ids w src snaps a) {F : Forest Id} {root : Id}
    {L : List (Blob Id)} (hF : parentForest C src (parentSnapshot a.paths snaps) = .ok F)
    (hb : backupBlobs C cut a.filter F a.pathOf ((parentSnapshot a.paths snaps).map (·.tree)) a.fs =
      .ok (root, L)) {R : Repo Id}
    (hold : ∀ b, Has C w.repo b → (∃ p, parentSnapshot a.paths snaps = some p ∧ Used C w.repo p.tree b) → Has C R b)
    (hall : ∀ b ∈ L, Has C R b) : Holds C R root (arrange (keep a.filter a.pathOf a.fs)) := by
  obtain ⟨t, h1, rfl, h3, h4⟩ := backup_rel (PF := FileHolds C R) (PT := TreeAt C R) hB.chunker
    (by
      intro x hx
      have := file_holds (C := C) (R := R) (Chunk.chunkFile C.hash cut x) (fun b hb =>
        ⟨hall b (hx b hb), (C10.chunk_bounds _ cut hB.chunker x b hb).2.2.2⟩)
      rwa [C10.chunks_concat _ cut hB.chunker] at this)
    (fun t ht hm => ⟨ht, rfl, hm.imp (fun e => e) (hall _)⟩)
    hB.fits hB.few hB.sorted
    ((parent_used hB hF).mono (fun _ _ h => ⟨file_mono h.1.1 (fun b hb hc => hold b hb (h.2 b hb hc)), h.1.2⟩)) hb
  exact ⟨t, ⟨h1, rfl, h3.imp (fun e => e) (hall _)⟩, h4⟩

end Backpak.Beside
