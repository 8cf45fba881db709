import Verif.Lemmas.Beside
import Verif.Lemmas.Stored
import Verif.Model.Rebuilding

/-!
# A rebuild-index beside backups: what each process puts in the repository, and what that does to it
-/

namespace Backpak.Rebuilding

open Spec Pipeline
open C65 (Apart Known mem_put listed_mono)
open Beside (own gives Unlisted Adds NewApart ledger_union index_ids jobs jobs_of jobs_some jobs_same jobs_start upd_job)

variable {ι Id : Type} [DecidableEq ι] [LinearOrder Id]

/-- A process that adds to what there is, and the snapshots it stores can be read once it has. -/
structure Brings (C : Codec Id) (ids : Ids Id) (cores : Nat) (U : Pack Id → Prop) (X : Index Id → Prop)
    (S : Snapshot Id → Prop) (R0 : Repo Id) (j : Job Id) : Prop extends Adds C ids cores U X S R0 j where
  ups : ∀ p, Op.up p ∈ j.main → p ∈ BMap.keys j.c.start.packs
  reads : ∀ s, Reachable (own ids cores j) j.w j.main s → s.joined = true →
    ∀ R', (∀ b, Has C s.world.repo b → Has C R' b) → ∀ sn, Post.putSnap sn ∈ j.posts → ∃ d, Holds C R' sn.tree d

/-- Until the index of the rebuild is stored, there are the indexes of the beginning and those of backups. -/
structure Early (R0 R : Repo Id) : Prop where
  base : ∀ e ∈ R0.indexes, e ∈ R.indexes
  origin : ∀ i x, (i, x) ∈ R.indexes → (i, x) ∈ R0.indexes ∨ (x.supersedes = [] ∧ ¬ Superseded R0.indexes i)

/-- What the rebuild has listed. -/
structure Seen (R0 R : Repo Id) (I : List Id) : Prop where
  base : ∀ e ∈ R0.indexes, e.1 ∈ I
  there : ∀ i ∈ I, ∃ x, (i, x) ∈ R.indexes

/-- What it has gathered. -/
structure Gathers (R0 R : Repo Id) (I : List Id) (s : Rebuild.State Id) (x : Index Id) : Prop where
  sup : x.supersedes = I
  sorted : BMap.Sorted x.packs
  from_packs : ∀ e ∈ s.queue ++ x.packs, ∃ bs, (e.1, bs) ∈ R.packs ∧ e.2 = Pack.manifestOf bs
  cover : ∀ i ∈ I, ∀ y, (i, y) ∈ R.indexes → ∀ q ∈ BMap.keys y.packs,
    q ∈ s.todo ∨ q ∈ s.queue.map Prod.fst ∨ q ∈ BMap.keys x.packs
  cover0 : ∀ q ∈ BMap.keys R0.packs, q ∈ s.todo ∨ q ∈ s.queue.map Prod.fst ∨ q ∈ BMap.keys x.packs
  todo : ∀ q ∈ s.todo, q ∈ BMap.keys R.packs
  nodup : (s.todo ++ (s.queue.map Prod.fst ++ BMap.keys x.packs)).Nodup

/-- The index it made of that. -/
structure Whole (R0 R : Repo Id) (I : List Id) (x : Index Id) : Prop where
  sup : x.supersedes = I
  sorted : BMap.Sorted x.packs
  from_packs : ∀ q mf, (q, mf) ∈ x.packs → ∃ bs, (q, bs) ∈ R.packs ∧ Pack.manifestOf bs = mf
  cover : ∀ i ∈ I, ∀ y, (i, y) ∈ R.indexes → ∀ e ∈ y.packs, e ∈ x.packs
  cover0 : ∀ q ∈ BMap.keys R0.packs, q ∈ BMap.keys x.packs

/-- From when that is stored on. -/
structure Late (ids : Ids Id) (X : Index Id → Prop) (R0 R : Repo Id) (I : List Id) (x : Index Id) : Prop where
  sup : x.supersedes = I
  there : (ids.indexId x, x) ∈ R.indexes
  new : ids.indexId x ∉ I
  live : ¬ Superseded R0.indexes (ids.indexId x)
  base : ∀ e ∈ R0.indexes, e.1 ∈ I
  origin : ∀ i y, (i, y) ∈ R.indexes → (i, y) ∈ R0.indexes ∨ (y.supersedes = [] ∧ ¬ Superseded R0.indexes i) ∨ y = x
  cover : ∀ y, X y → ids.indexId y ∈ I → ∀ e ∈ y.packs, e ∈ x.packs
  cover0 : ∀ q ∈ BMap.keys R0.packs, q ∈ BMap.keys x.packs

/-- Where the rebuild is. -/
def AtPhase (ids : Ids Id) (X : Index Id → Prop) (R0 R : Repo Id) : Rebuilder Id → Prop
  | .no => Early R0 R
  | .listed I _ => Early R0 R ∧ Seen R0 R I
  | .running I s left => (∀ o ∈ left, ∃ i ∈ I, o = .rmIndex i) ∧
    match s.phase with
    | .gather x => Early R0 R ∧ Seen R0 R I ∧ Gathers R0 R I s x
    | .wrote x | .copied x => Early R0 R ∧ Seen R0 R I ∧ Whole R0 R I x
    | .stored x | .uploaded x => Late ids X R0 R I x
    | .dead => False

/-- What holds of the repository at every instant. -/
structure Core (C : Codec Id) (ids : Ids Id) (U : Pack Id → Prop) (X : Index Id → Prop) (S : Snapshot Id → Prop)
    (R0 : Repo Id) (J : ι → Option (Job Id)) (R : Repo Id) (alone : ι → Repo Id) : Prop where
  known : Known ids U X S R
  psort : BMap.Sorted R.packs
  isort : BMap.Sorted R.indexes
  ssort : BMap.Sorted R.snapshots
  ledger : Ledger C (fun p bs => (p, bs) ∈ R.packs)
  lists : ∀ i x, (i, x) ∈ R.indexes → BMap.Sorted x.packs ∧
    ∀ q mf, (q, mf) ∈ x.packs → ∃ bs, (q, bs) ∈ R.packs ∧ Pack.manifestOf bs = mf
  base : ∀ e ∈ R0.packs, e ∈ R.packs
  snaps0 : ∀ e ∈ R0.snapshots, e ∈ R.snapshots
  packs : ∀ k j, J k = some j → ∀ e ∈ (alone k).packs, e ∈ R.packs
  snaps : ∀ k j, J k = some j → ∀ e ∈ (alone k).snapshots, e ∈ R.snapshots
  origin : ∀ q bs, (q, bs) ∈ R.packs → (q, bs) ∈ R0.packs ∨
    ∃ k j, J k = some j ∧ (q, bs) ∈ (alone k).packs ∧ (q, bs) ∉ j.w.repo.packs ∧ ∀ b ∈ bs, b.id ∈ gives j
  apart0 : ∀ k j, J k = some j → ∀ y ∈ gives j, ∀ q bs, (q, bs) ∈ R0.packs → ∀ b ∈ bs, b.id ≠ y
  listed0 : ∀ q mf, Listed R0.indexes q mf → Listed R.indexes q mf
  listed : ∀ k j, J k = some j → ∀ q mf, Listed (alone k).indexes q mf → Listed R.indexes q mf
  readable : ∀ i sn, (i, sn) ∈ R.snapshots → ∃ d, Holds C R sn.tree d

variable {C : Codec Id} {ids : Ids Id} {cores : Nat} {U : Pack Id → Prop} {X : Index Id → Prop}
  {S : Snapshot Id → Prop} {R0 R R' : Repo Id} {j : Job Id} {J : ι → Option (Job Id)} {alone : ι → Repo Id}
  {I : List Id} {rb : Rebuilder Id}

omit [DecidableEq ι] in
theorem Core.sound (h : Core C ids U X S R0 J R alone) : Sound C R :=
  (h.ledger.mono (L' := LivePack R) (fun _ _ h1 => h1.2)).sound h.psort h.isort (fun p m hl => by
    obtain ⟨i, x, ⟨h1, _⟩, h2⟩ := hl
    exact (h.lists i x h1).2 p m h2)

omit [DecidableEq ι] in
theorem Core.healthy (h : Core C ids U X S R0 J R alone) : Healthy C ids R := by
  have hs := h.sound
  exact ⟨h.psort, h.isort, h.ssort, fun p bs hp => (h.known.packs p bs hp).1,
    fun i x hi => (h.known.indexes i x hi).1, fun i x hi => (h.lists i x hi).1, hs.present, hs.distinct, hs.once,
    hs.one_kind, hs.hashes, hs.trees, hs.full, fun i s hi => h.readable i s hi⟩

theorem has_mono (hp : ∀ e ∈ R.packs, e ∈ R'.packs) (hl : ∀ q mf, Listed R.indexes q mf → Listed R'.indexes q mf)
    {b : Blob Id} (h : Has C R b) : Has C R' b := by
  obtain ⟨h1, q, bs, h2, h3, h4⟩ := h
  exact ⟨h1, q, bs, hl _ _ h2, hp _ h3, h4⟩

theorem Early.sup (h : Early R0 R) (k : Id) : Superseded R.indexes k ↔ Superseded R0.indexes k := by
  constructor
  · rintro ⟨j, x, hx, hk⟩
    rcases h.origin j x hx with h1 | ⟨h1, _⟩
    · exact ⟨j, x, h1, hk⟩
    · rw [h1] at hk; cases hk
  · rintro ⟨j, x, hx, hk⟩
    exact ⟨j, x, h.base _ hx, hk⟩

theorem Late.fresh {x : Index Id} (h : Late ids X R0 R I x) {i : Id} {y : Index Id} (hi : (i, y) ∈ R.indexes)
    (hn : i ∉ I) (hk : i = ids.indexId y) : ¬ Superseded R.indexes i := by
  have h0 : ¬ Superseded R0.indexes i := by
    rcases h.origin i y hi with h1 | h1 | rfl
    · exact absurd (h.base _ h1) hn
    · exact h1.2
    · rw [hk]; exact h.live
  rintro ⟨k, z, hz, hs⟩
  rcases h.origin k z hz with h1 | h1 | rfl
  · exact h0 ⟨k, z, h1, hs⟩
  · rw [h1.1] at hs; cases hs
  · rw [h.sup] at hs; exact hn hs

theorem Late.listed {x : Index Id} (h : Late ids X R0 R I x) {q : Id} {mf : Manifest Id} (hq : (q, mf) ∈ x.packs) :
    Listed R.indexes q mf :=
  ⟨_, x, ⟨h.there, h.fresh h.there h.new rfl⟩, hq⟩

/-! ## What the processes do -/

omit [DecidableEq ι] in
/-- Indexes stay listed when what is put among them supersedes nothing. -/
theorem listed_put {i : Id} {x : Index Id} (hput : ∀ e, e ∈ R'.indexes ↔ e = (i, x) ∨ e ∈ R.indexes)
    (hsup : x.supersedes = []) {q : Id} {mf : Manifest Id} (h : Listed R.indexes q mf) : Listed R'.indexes q mf := by
  obtain ⟨a, y, ⟨h1, h2⟩, h3⟩ := h
  refine ⟨a, y, ⟨(hput _).mpr (.inr h1), ?_⟩, h3⟩
  rintro ⟨b, z, h4, h5⟩
  rcases (hput _).mp h4 with h6 | h6
  · cases h6; rw [hsup] at h5; cases h5
  · exact h2 ⟨b, z, h6, h5⟩

theorem keys_mono {V : Type} {m m' : BMap Id V} (h : ∀ e ∈ m, e ∈ m') {k : Id} (hk : k ∈ BMap.keys m) :
    k ∈ BMap.keys m' := by
  obtain ⟨e, he, rfl⟩ := List.mem_map.mp hk
  exact List.mem_map.mpr ⟨e, h e he, rfl⟩

/-- A pack is stored. -/
theorem AtPhase.pack (h : AtPhase ids X R0 R rb) (hi : R'.indexes = R.indexes)
    (hp : ∀ e ∈ R.packs, e ∈ R'.packs) : AtPhase ids X R0 R' rb := by
  have early : Early R0 R → Early R0 R' := fun h => ⟨by rw [hi]; exact h.base, by rw [hi]; exact h.origin⟩
  have seen : ∀ {I}, Seen R0 R I → Seen R0 R' I := fun h => ⟨h.base, by rw [hi]; exact h.there⟩
  have late : ∀ {I x}, Late ids X R0 R I x → Late ids X R0 R' I x := fun h =>
    ⟨h.sup, by rw [hi]; exact h.there, h.new, h.live, h.base, by rw [hi]; exact h.origin, h.cover, h.cover0⟩
  have whole : ∀ {I x}, Whole R0 R I x → Whole R0 R' I x := fun h =>
    ⟨h.sup, h.sorted, fun q mf hq => (h.from_packs q mf hq).imp fun bs hb => ⟨hp _ hb.1, hb.2⟩, by rw [hi]; exact h.cover, h.cover0⟩
  cases rb with
  | no => exact early h
  | listed I c => exact ⟨early h.1, seen h.2⟩
  | running I s left =>
    refine ⟨h.1, ?_⟩
    have h := h.2
    cases hph : s.phase with
    | gather x =>
      simp only [hph] at h ⊢
      obtain ⟨h1, h2, h3⟩ := h
      exact ⟨early h1, seen h2, h3.sup, h3.sorted,
        fun e he => (h3.from_packs e he).imp fun bs hb => ⟨hp _ hb.1, hb.2⟩, by rw [hi]; exact h3.cover, h3.cover0,
        fun q hq => keys_mono hp (h3.todo q hq), h3.nodup⟩
    | wrote x => simp only [hph] at h ⊢; exact ⟨early h.1, seen h.2.1, whole h.2.2⟩
    | copied x => simp only [hph] at h ⊢; exact ⟨early h.1, seen h.2.1, whole h.2.2⟩
    | stored x => simp only [hph] at h ⊢; exact late h
    | uploaded x => simp only [hph] at h ⊢; exact late h
    | dead => simp only [hph] at h

theorem Core.pack (hU : Apart ids U X S) (h : Core C ids U X S R0 J R alone) (hd : NewApart J)
    (hadd : ∀ k j, J k = some j → Brings C ids cores U X S R0 j)
    {k : ι} {j : Job Id} (hk : J k = some j) {q : Id} {bs : Pack Id} (hq : q = ids.packId (Pack.manifestOf bs))
    (hbs : U bs) {news : List (Id × Pack Id)} (hsrt : BMap.Sorted (alone k).packs) (hkeep : ∀ e ∈ j.w.repo.packs, e ∈ (alone k).packs)
    (hled : Ledger C (fun p bs => StartPack (own ids cores j) p bs ∨ (p, bs) ∈ news))
    (hsend : ∀ e ∈ news, ∀ b ∈ e.2, b ∈ sends j.main)
    (hall : ∀ p cs, (p, cs) ∈ (alone k).packs ∨ (p, cs) = (q, bs) →
      (p, cs) ∈ j.w.repo.packs ∨ StartPack (own ids cores j) p cs ∨ (p, cs) ∈ news) :
    Core C ids U X S R0 J (putItem R (.pack q bs)) (Function.update alone k (putItem (alone k) (.pack q bs))) := by
  have hput : ∀ e, e ∈ (putItem R (.pack q bs)).packs ↔ e = (q, bs) ∨ e ∈ R.packs :=
    mem_put h.psort (fun v hv => hU.packs _ _ (h.known.packs _ _ hv).2 hbs
      ((h.known.packs _ _ hv).1.symm.trans hq))
  have old : ∀ e ∈ R.packs, e ∈ (putItem R (.pack q bs)).packs := fun e he => (hput e).mpr (.inr he)
  have hal : ∀ i, (Function.update alone k (putItem (alone k) (.pack q bs)) i).indexes = (alone i).indexes ∧
      (Function.update alone k (putItem (alone k) (.pack q bs)) i).snapshots = (alone i).snapshots ∧
      ∀ e ∈ (Function.update alone k (putItem (alone k) (.pack q bs)) i).packs, e = (q, bs) ∨ e ∈ (alone i).packs := by
    intro i
    by_cases hi : i = k
    · subst hi
      rw [Function.update_self]
      refine ⟨rfl, rfl, ?_⟩
      rintro ⟨q', bs'⟩ he
      rcases BMap.mem_insert_of he with ⟨rfl, rfl⟩ | he
      · exact .inl rfl
      · exact .inr he
    · rw [Function.update_of_ne hi]
      exact ⟨rfl, rfl, fun e he => .inr he⟩
  have hB := hadd k j hk
  have hgives : ∀ p cs, StartPack (own ids cores j) p cs ∨ (p, cs) ∈ news → ∀ b ∈ cs, b.id ∈ gives j := by
    rintro p cs (h1 | h1) b hb
    · refine List.mem_append_left _ (List.mem_flatMap.mpr ⟨_, h1.1, ?_⟩)
      rw [entry_ids]
      exact List.mem_map.mpr ⟨b, hb, rfl⟩
    · exact List.mem_append_right _ (List.mem_map.mpr ⟨b, hsend _ h1 b hb, rfl⟩)
  -- a pack that is not there yet
  have hnew : (q, bs) ∉ R.packs → StartPack (own ids cores j) q bs ∨ (q, bs) ∈ news := by
    intro hn
    rcases hall q bs (.inr rfl) with h1 | h1
    · exact absurd (h.packs k j hk _ (hkeep _ h1)) hn
    · exact h1
  have hkn : ∀ p cs, (p, cs) ∈ (putItem R (.pack q bs)).packs → p = ids.packId (Pack.manifestOf cs) ∧ U cs := by
    intro p cs hp
    rcases (hput _).mp hp with h1 | h1
    · cases h1; exact ⟨hq, hbs⟩
    · exact h.known.packs _ _ h1
  have hmem : ∀ e, e ∈ (putItem (alone k) (.pack q bs)).packs ↔ e = (q, bs) ∨ e ∈ (alone k).packs :=
    mem_put hsrt (fun v hv => hU.packs _ _ (h.known.packs _ _ (h.packs k j hk _ hv)).2 hbs
      ((h.known.packs _ _ (h.packs k j hk _ hv)).1.symm.trans hq))
  have hsort : BMap.Sorted (putItem R (.pack q bs)).packs := BMap.sorted_insert h.psort _ _
  refine ⟨⟨hkn, h.known.indexes, h.known.snaps⟩, hsort, h.isort, h.ssort, ?_, ?_, fun e he => old _ (h.base e he),
    h.snaps0, ?_, ?_, ?_, h.apart0, h.listed0, ?_, ?_⟩
  · have hL' : Ledger C (fun p cs => (p, cs) = (q, bs) ∧ (q, bs) ∉ R.packs) := by
      refine hled.mono ?_
      rintro p cs ⟨h1, h2⟩
      cases h1
      exact hnew h2
    refine (ledger_union h.ledger hL' ?_ ?_).mono ?_
    · intro p cs cs' h1 h2
      have hin : ∀ cs, ((p, cs) ∈ R.packs ∨ (p, cs) = (q, bs) ∧ (q, bs) ∉ R.packs) →
          (p, cs) ∈ (putItem R (.pack q bs)).packs :=
        fun cs h => h.elim (fun h => old _ h) (fun h => (hput _).mpr (.inl h.1))
      exact hU.packs _ _ (hkn _ _ (hin _ h1)).2 (hkn _ _ (hin _ h2)).2
        ((hkn _ _ (hin _ h1)).1.symm.trans (hkn _ _ (hin _ h2)).1)
    · rintro p cs p' cs' b b' h1 ⟨h2, h3⟩ hb hb' he
      cases h2
      have hn := hnew h3
      have hg' := hgives _ _ hn b' hb'
      rcases h.origin p cs h1 with h4 | ⟨l, j', h4, h5, h6, h7⟩
      · exact h.apart0 k j hk _ hg' p cs h4 b hb he
      · by_cases hlk : l = k
        · subst hlk
          rw [hk] at h4
          cases h4
          rcases hall p cs (.inl h5) with h8 | h8
          · exact h6 h8
          · have := hled.once p cs _ _ b b' h8 hn hb hb' he
            subst this
            have := hled.one p cs _ h8 hn
            subst this
            exact h3 h1
        · have g1 := h7 b hb
          rw [he] at g1
          exact hd l k j' j h4 hk hlk _ g1 ((hadd l j' h4).new _ g1) hg' (hB.new _ hg')
    · rintro p cs hp
      rcases (hput _).mp hp with h1 | h1
      · by_cases hin : (q, bs) ∈ R.packs
        · left; rw [h1]; exact hin
        · exact .inr ⟨h1, hin⟩
      · exact .inl h1
  · intro i x hx
    obtain ⟨h1, h2⟩ := h.lists i x hx
    exact ⟨h1, fun p mf hp => (h2 p mf hp).imp fun cs hc => ⟨old _ hc.1, hc.2⟩⟩
  · intro i j' hi e he
    rcases (hal i).2.2 _ he with h1 | h1
    · exact (hput _).mpr (.inl h1)
    · exact old _ (h.packs i j' hi e h1)
  · intro i j' hi e he
    rw [(hal i).2.1] at he
    exact h.snaps i j' hi e he
  · intro p cs hp
    have hmine : ∀ e ∈ (putItem (alone k) (.pack q bs)).packs,
        e ∈ (Function.update alone k (putItem (alone k) (.pack q bs)) k).packs := by
      intro e he; rw [Function.update_self]; exact he
    by_cases hin : (p, cs) ∈ R.packs
    · rcases h.origin p cs hin with h1 | ⟨l, j', h1, h2, h3⟩
      · exact .inl h1
      · refine .inr ⟨l, j', h1, ?_, h3⟩
        by_cases hlk : l = k
        · subst hlk
          exact hmine _ ((hmem _).mpr (.inr h2))
        · rw [Function.update_of_ne hlk]; exact h2
    · rcases (hput _).mp hp with h1 | h1
      · cases h1
        exact .inr ⟨k, j, hk, hmine _ ((hmem _).mpr (.inl rfl)), fun h2 => hin (h.packs k j hk _ (hkeep _ h2)),
          hgives _ _ (hnew hin)⟩
      · exact absurd h1 hin
  · intro i j' hi p mf hl
    rw [(hal i).1] at hl
    exact h.listed i j' hi p mf hl
  · intro i sn hi
    obtain ⟨d, hdd⟩ := h.readable i sn hi
    exact ⟨d, has_mono_holds (fun b hb => has_mono (R' := putItem R (.pack q bs)) old (fun _ _ h => h) hb) hdd⟩

omit [DecidableEq ι] in
/-- Other indexes, by which nothing is lost. -/
theorem Core.change (h : Core C ids U X S R0 J R alone) {alone' : ι → Repo Id} (hp : R'.packs = R.packs)
    (hs : R'.snapshots = R.snapshots) (hk : ∀ i x, (i, x) ∈ R'.indexes → i = ids.indexId x ∧ X x)
    (hi : BMap.Sorted R'.indexes)
    (hl : ∀ i x, (i, x) ∈ R'.indexes → BMap.Sorted x.packs ∧
      ∀ q mf, (q, mf) ∈ x.packs → ∃ bs, (q, bs) ∈ R.packs ∧ Pack.manifestOf bs = mf)
    (hm : ∀ q mf, Listed R.indexes q mf → Listed R'.indexes q mf)
    (ha : ∀ k, (alone' k).packs = (alone k).packs ∧ (alone' k).snapshots = (alone k).snapshots)
    (hal : ∀ k j, J k = some j → ∀ q mf, Listed (alone' k).indexes q mf → Listed R'.indexes q mf) :
    Core C ids U X S R0 J R' alone' := by
  refine ⟨⟨by rw [hp]; exact h.known.packs, hk, by rw [hs]; exact h.known.snaps⟩, by rw [hp]; exact h.psort, hi,
    by rw [hs]; exact h.ssort, by rw [hp]; exact h.ledger, by rw [hp]; exact hl, by rw [hp]; exact h.base,
    by rw [hs]; exact h.snaps0, ?_, ?_, ?_, h.apart0, fun q mf h1 => hm _ _ (h.listed0 q mf h1), hal, ?_⟩
  · intro k j hk
    rw [(ha k).1, hp]
    exact h.packs k j hk
  · intro k j hk
    rw [(ha k).2, hs]
    exact h.snaps k j hk
  · intro q bs hq
    rw [hp] at hq
    rcases h.origin q bs hq with h1 | ⟨k, j, h1, h2⟩
    · exact .inl h1
    · refine .inr ⟨k, j, h1, ?_⟩
      rw [(ha k).1]
      exact h2
  · intro i sn hi
    rw [hs] at hi
    obtain ⟨d, hd⟩ := h.readable i sn hi
    exact ⟨d, has_mono_holds (fun b hb => has_mono (by rw [hp]; exact fun e he => he) hm hb) hd⟩

/-- A backup's index is stored: the rebuild goes on as it was. -/
theorem AtPhase.index (hU : Apart ids U X S) (hK : Known ids U X S R) (h : AtPhase ids X R0 R rb)
    {i : Id} {x : Index Id} (hput : ∀ e, e ∈ R'.indexes ↔ e = (i, x) ∨ e ∈ R.indexes) (hp : R'.packs = R.packs)
    (hi : i = ids.indexId x) (hX : X x) (hsup : x.supersedes = []) (hsafe : ¬ Superseded R0.indexes i) :
    AtPhase ids X R0 R' rb := by
  have early : Early R0 R → Early R0 R' := fun h => ⟨fun e he => (hput e).mpr (.inr (h.base e he)), fun a y ha => by
    rcases (hput _).mp ha with h1 | h1
    · cases h1; exact .inr ⟨hsup, hsafe⟩
    · exact h.origin a y h1⟩
  have seen : ∀ {I}, Seen R0 R I → Seen R0 R' I := fun h =>
    ⟨h.base, fun a ha => (h.there a ha).imp fun y hy => (hput _).mpr (.inr hy)⟩
  have old : ∀ {I a y}, Seen R0 R I → a ∈ I → (a, y) ∈ R'.indexes → (a, y) ∈ R.indexes := by
    intro I a y hs ha hy
    rcases (hput _).mp hy with h1 | h1
    · cases h1
      obtain ⟨z, hz⟩ := hs.there i ha
      obtain ⟨k1, k2⟩ := hK.indexes _ _ hz
      have : z = x := hU.indexes _ _ k2 hX (k1.symm.trans hi)
      subst this
      exact hz
    · exact h1
  have late : ∀ {I x0}, Late ids X R0 R I x0 → Late ids X R0 R' I x0 := fun h =>
    ⟨h.sup, (hput _).mpr (.inr h.there), h.new, h.live, h.base, fun a y ha => by
      rcases (hput _).mp ha with h1 | h1
      · cases h1; exact .inr (.inl ⟨hsup, hsafe⟩)
      · exact h.origin a y h1, h.cover, h.cover0⟩
  have whole : ∀ {I x0}, Seen R0 R I → Whole R0 R I x0 → Whole R0 R' I x0 := fun hs h =>
    ⟨h.sup, h.sorted, by rw [hp]; exact h.from_packs, fun a ha y hy => h.cover a ha y (old hs ha hy), h.cover0⟩
  cases rb with
  | no => exact early h
  | listed I c => exact ⟨early h.1, seen h.2⟩
  | running I s left =>
    refine ⟨h.1, ?_⟩
    have h := h.2
    cases hph : s.phase with
    | gather x =>
      simp only [hph] at h ⊢
      obtain ⟨h1, h2, h3⟩ := h
      exact ⟨early h1, seen h2, h3.sup, h3.sorted, by rw [hp]; exact h3.from_packs,
        fun a ha y hy => h3.cover a ha y (old h2 ha hy), h3.cover0, by rw [hp]; exact h3.todo, h3.nodup⟩
    | wrote x => simp only [hph] at h ⊢; exact ⟨early h.1, seen h.2.1, whole h.2.1 h.2.2⟩
    | copied x => simp only [hph] at h ⊢; exact ⟨early h.1, seen h.2.1, whole h.2.1 h.2.2⟩
    | stored x => simp only [hph] at h ⊢; exact late h
    | uploaded x => simp only [hph] at h ⊢; exact late h
    | dead => simp only [hph] at h

/-- Either the index of the rebuild is not there yet or it is. -/
theorem AtPhase.cases (h : AtPhase ids X R0 R rb) : Early R0 R ∨ ∃ I x, Late ids X R0 R I x := by
  cases rb with
  | no => exact .inl h
  | listed I c => exact .inl h.1
  | running I s left =>
    have h := h.2
    cases hph : s.phase with
    | gather x => simp only [hph] at h; exact .inl h.1
    | wrote x => simp only [hph] at h; exact .inl h.1
    | copied x => simp only [hph] at h; exact .inl h.1
    | stored x => simp only [hph] at h; exact .inr ⟨I, x, h⟩
    | uploaded x => simp only [hph] at h; exact .inr ⟨I, x, h⟩
    | dead => simp only [hph] at h

/-- A backup's index is stored. -/
theorem Core.index (hU : Apart ids U X S) (h : Core C ids U X S R0 J R alone) (hph : AtPhase ids X R0 R rb)
    {k : ι} {j : Job Id} (hk : J k = some j) (hA : Brings C ids cores U X S R0 j) {i : Id} {x : Index Id}
    {news : List (Id × Pack Id)} (hal : (alone k).indexes = j.w.repo.indexes) (hi : i = ids.indexId x)
    (hn : NewIndex (own ids cores j) j.w.repo (putItem (alone k) (.index i x)) (sends j.main) x news) :
    Core C ids U X S R0 J (putItem R (.index i x)) (Function.update alone k (putItem (alone k) (.index i x))) ∧
    AtPhase ids X R0 (putItem R (.index i x)) rb := by
  have hX : X x := hA.indexes x hn.writes
  have hsup : x.supersedes = [] := hn.sup.trans hA.sup
  have hsafe := hA.safe x hn.writes
  rw [← hi] at hsafe
  have hput : ∀ e, e ∈ (putItem R (.index i x)).indexes ↔ e = (i, x) ∨ e ∈ R.indexes :=
    mem_put h.isort (fun v hv => hU.indexes _ _ (h.known.indexes _ _ hv).2 hX
      ((h.known.indexes _ _ hv).1.symm.trans hi))
  have hph' : AtPhase ids X R0 (putItem R (.index i x)) rb :=
    hph.index hU h.known hput rfl hi hX hsup hsafe
  refine ⟨?_, hph'⟩
  have hmono : ∀ q mf, Listed R.indexes q mf → Listed (putItem R (.index i x)).indexes q mf :=
    fun q mf => listed_put hput hsup
  have hnew : ∀ q mf, (q, mf) ∈ x.packs → Listed (putItem R (.index i x)).indexes q mf := by
    intro q mf hq
    rcases hph'.cases with h1 | ⟨I, x0, h1⟩
    · exact ⟨i, x, ⟨(hput _).mpr (.inl rfl), fun h2 => hsafe ((h1.sup i).mp h2)⟩, hq⟩
    · by_cases hin : i ∈ I
      · exact h1.listed (h1.cover x hX (hi ▸ hin) _ hq)
      · exact ⟨i, x, ⟨(hput _).mpr (.inl rfl), h1.fresh ((hput _).mpr (.inl rfl)) hin hi⟩, hq⟩
  refine h.change rfl rfl ?_ (BMap.sorted_insert h.isort _ _) ?_ hmono ?_ ?_
  · intro a y ha
    rcases (hput _).mp ha with h1 | h1
    · cases h1; exact ⟨hi, hX⟩
    · exact h.known.indexes _ _ h1
  · intro a y ha
    rcases (hput _).mp ha with h1 | h1
    · cases h1
      refine ⟨hn.sorted, fun q mf hq => ?_⟩
      obtain ⟨bs, h2, h3⟩ := hn.there q mf hq
      exact ⟨bs, h.packs k j hk _ h2, h3⟩
    · exact h.lists _ _ h1
  · intro l
    by_cases hl : l = k
    · subst hl; rw [Function.update_self]; exact ⟨rfl, rfl⟩
    · rw [Function.update_of_ne hl]; exact ⟨rfl, rfl⟩
  · intro l j' hl q mf hq
    by_cases hlk : l = k
    · subst hlk
      rw [Function.update_self] at hq
      have hmem : ∀ e, e ∈ (putItem (alone l) (.index i x)).indexes ↔ e = (i, x) ∨ e ∈ (alone l).indexes := by
        refine mem_put (by rw [hal]; exact hA.run.world.isort) (fun v hv => ?_)
        have := (hA.idx x hn.writes).2.1 v
        rw [hal, hi] at hv
        exact this hv
      obtain ⟨a, y, ⟨h1, h2⟩, h3⟩ := hq
      rcases (hmem _).mp h1 with h4 | h4
      · cases h4; exact hnew q mf h3
      · refine hmono q mf (h.listed l j' hl q mf ⟨a, y, ⟨h4, ?_⟩, h3⟩)
        rintro ⟨b, z, h5, h6⟩
        exact h2 ⟨b, z, (hmem _).mpr (.inr h5), h6⟩
    · rw [Function.update_of_ne hlk] at hq
      exact hmono q mf (h.listed l j' hl q mf hq)

/-- A snapshot is stored. -/
theorem Core.snap (hU : Apart ids U X S) (h : Core C ids U X S R0 J R alone) {k : ι}
    {sn : Snapshot Id} (hsn : S sn) (hr : ∃ d, Holds C R sn.tree d) :
    Core C ids U X S R0 J (applyPost ids R (.putSnap sn))
      (Function.update alone k (applyPost ids (alone k) (.putSnap sn))) := by
  have hput : ∀ e, e ∈ (applyPost ids R (.putSnap sn)).snapshots ↔ e = (ids.snapId sn, sn) ∨ e ∈ R.snapshots :=
    mem_put h.ssort (fun v hv => hU.snaps _ _ (h.known.snaps _ _ hv).2 hsn (h.known.snaps _ _ hv).1.symm)
  have hal : ∀ i, (Function.update alone k (applyPost ids (alone k) (.putSnap sn)) i).indexes = (alone i).indexes ∧
      (Function.update alone k (applyPost ids (alone k) (.putSnap sn)) i).packs = (alone i).packs := by
    intro i
    by_cases hi : i = k
    · subst hi
      rw [Function.update_self]
      exact ⟨rfl, rfl⟩
    · rw [Function.update_of_ne hi]
      exact ⟨rfl, rfl⟩
  have hh : ∀ {t : Id} {d : Dir Bytes}, Holds C R t d → Holds C (applyPost ids R (.putSnap sn)) t d :=
    fun hd => has_mono_holds (fun b hb => has_mono (R := R) (R' := applyPost ids R (.putSnap sn)) (fun e he => he)
      (fun _ _ h => h) hb) hd
  refine ⟨⟨h.known.packs, h.known.indexes, ?_⟩, h.psort, h.isort, BMap.sorted_insert h.ssort _ _, h.ledger, h.lists,
    h.base, fun e he => (hput e).mpr (.inr (h.snaps0 e he)), ?_, ?_, ?_, h.apart0, h.listed0, ?_, ?_⟩
  · intro i s hi
    rcases (hput _).mp hi with h1 | h1
    · cases h1; exact ⟨rfl, hsn⟩
    · exact h.known.snaps _ _ h1
  · intro i j' hi
    rw [(hal i).2]
    exact h.packs i j' hi
  · intro i j' hi e he
    by_cases hik : i = k
    · subst hik
      rw [Function.update_self] at he
      obtain ⟨a, b⟩ := e
      rcases BMap.mem_insert_of he with ⟨rfl, rfl⟩ | he
      · exact (hput _).mpr (.inl rfl)
      · exact (hput _).mpr (.inr (h.snaps i j' hi _ he))
    · rw [Function.update_of_ne hik] at he
      exact (hput _).mpr (.inr (h.snaps i j' hi _ he))
  · intro q bs hq
    rcases h.origin q bs hq with h1 | ⟨l, j, h1, h2⟩
    · exact .inl h1
    · refine .inr ⟨l, j, h1, ?_⟩
      rw [(hal l).2]
      exact h2
  · intro i j' hi
    rw [(hal i).1]
    exact h.listed i j' hi
  · intro i s hi
    rcases (hput _).mp hi with h1 | h1
    · cases h1
      obtain ⟨d, hd⟩ := hr
      exact ⟨d, hh hd⟩
    · obtain ⟨d, hd⟩ := h.readable i s h1
      exact ⟨d, hh hd⟩

/-- A process starts. -/
theorem Core.start (h : Core C ids U X S R0 J R alone) {k : ι} {j : Job Id} (hn : J k = none)
    (ht : ∀ q bs, (q, bs) ∈ R0.packs → Listed R0.indexes q (Pack.manifestOf bs))
    (hadd : ∀ x ∈ gives j, Unlisted R x) :
    Core C ids U X S R0 (Function.update J k (some j)) R (Function.update alone k R) := by
  have each : ∀ {P : ι → Job Id → Repo Id → Prop}, P k j R → (∀ l j', J l = some j' → P l j' (alone l)) →
      ∀ l j', Function.update J k (some j) l = some j' → P l j' (Function.update alone k R l) := by
    intro P h1 h2 l j' hl
    rcases upd_job hn hl with ⟨rfl, rfl⟩ | ⟨hne, hl⟩
    · rw [Function.update_self]; exact h1
    · rw [Function.update_of_ne hne]; exact h2 l j' hl
  refine ⟨h.known, h.psort, h.isort, h.ssort, h.ledger, h.lists, h.base, h.snaps0,
    each (P := fun _ _ A => ∀ e ∈ A.packs, e ∈ R.packs) (fun e he => he) h.packs,
    each (P := fun _ _ A => ∀ e ∈ A.snapshots, e ∈ R.snapshots) (fun e he => he) h.snaps, ?_,
    each (P := fun _ j _ => ∀ y ∈ gives j, ∀ q bs, (q, bs) ∈ R0.packs → ∀ b ∈ bs, b.id ≠ y) ?_ h.apart0, h.listed0,
    each (P := fun _ _ A => ∀ q mf, Listed A.indexes q mf → Listed R.indexes q mf) (fun q mf h => h) h.listed,
    h.readable⟩
  · intro q bs hq
    rcases h.origin q bs hq with h1 | ⟨l, j', h1, h2⟩
    · exact .inl h1
    · have hne : l ≠ k := by rintro rfl; rw [hn] at h1; cases h1
      refine .inr ⟨l, j', ?_, ?_⟩
      · rw [Function.update_of_ne hne]; exact h1
      · rw [Function.update_of_ne hne]; exact h2
  · intro y hy q bs hq b hb
    exact hadd y hy q _ (Pack.entryOf b) (h.listed0 _ _ (ht q bs hq)) (List.mem_map.mpr ⟨b, hb, rfl⟩)

/-! ## What the rebuild does -/

omit [DecidableEq ι] in
/-- It stores its index. -/
theorem Core.store (hU : Apart ids U X S) (h : Core C ids U X S R0 J R alone) (hE : Early R0 R) (hS : Seen R0 R I)
    {x : Index Id} (hW : Whole R0 R I x) (hX : X x) (hx : ¬ Superseded R0.indexes (ids.indexId x)) :
    Core C ids U X S R0 J (putItem R (.index (ids.indexId x) x)) alone ∧
    Late ids X R0 (putItem R (.index (ids.indexId x) x)) I x := by
  have hput : ∀ e, e ∈ (putItem R (.index (ids.indexId x) x)).indexes ↔ e = (ids.indexId x, x) ∨ e ∈ R.indexes :=
    mem_put h.isort (fun v hv => hU.indexes _ _ (h.known.indexes _ _ hv).2 hX (h.known.indexes _ _ hv).1.symm)
  have hnI : ids.indexId x ∉ I := by
    intro hin
    obtain ⟨y, hy⟩ := hS.there _ hin
    obtain ⟨k1, k2⟩ := h.known.indexes _ _ hy
    have : y = x := hU.indexes _ _ k2 hX k1.symm
    subst this
    rcases hE.origin _ _ hy with h1 | ⟨h1, _⟩
    · exact hx ⟨_, y, h1, by rw [hW.sup]; exact hin⟩
    · rw [hW.sup] at h1; rw [h1] at hin; cases hin
  have hL : Late ids X R0 (putItem R (.index (ids.indexId x) x)) I x := by
    refine ⟨hW.sup, (hput _).mpr (.inl rfl), hnI, hx, hS.base, ?_, ?_, hW.cover0⟩
    · intro a y ha
      rcases (hput _).mp ha with h1 | h1
      · cases h1; exact .inr (.inr rfl)
      · exact (hE.origin a y h1).imp_right .inl
    · intro y hy hin
      obtain ⟨z, hz⟩ := hS.there _ hin
      obtain ⟨k1, k2⟩ := h.known.indexes _ _ hz
      have : z = y := hU.indexes _ _ k2 hy k1.symm
      subst this
      exact hW.cover _ hin z hz
  have hm : ∀ q mf, Listed R.indexes q mf → Listed (putItem R (.index (ids.indexId x) x)).indexes q mf := by
    rintro q mf ⟨a, y, ⟨h1, h2⟩, h3⟩
    by_cases hin : a ∈ I
    · exact hL.listed (hW.cover a hin y h1 _ h3)
    · exact ⟨a, y, ⟨(hput _).mpr (.inr h1), hL.fresh ((hput _).mpr (.inr h1)) hin (h.known.indexes _ _ h1).1⟩, h3⟩
  refine ⟨h.change rfl rfl ?_ (BMap.sorted_insert h.isort _ _) ?_ hm (fun _ => ⟨rfl, rfl⟩)
    (fun k j hk q mf hl => hm q mf (h.listed k j hk q mf hl)), hL⟩
  · intro a y ha
    rcases (hput _).mp ha with h1 | h1
    · cases h1; exact ⟨rfl, hX⟩
    · exact h.known.indexes _ _ h1
  · intro a y ha
    rcases (hput _).mp ha with h1 | h1
    · cases h1; exact ⟨hW.sorted, hW.from_packs⟩
    · exact h.lists _ _ h1

omit [DecidableEq ι] in
/-- It removes an index it listed. -/
theorem Core.rmIndex (h : Core C ids U X S R0 J R alone) {x : Index Id} (hL : Late ids X R0 R I x) {l : Id} (hl : l ∈ I) :
    Core C ids U X S R0 J (applyPost ids R (.rmIndex l)) alone ∧
    Late ids X R0 (applyPost ids R (.rmIndex l)) I x := by
  have hput : ∀ e, e ∈ (applyPost ids R (.rmIndex l)).indexes ↔ e.1 ≠ l ∧ e ∈ R.indexes := by
    rintro ⟨a, y⟩
    exact BMap.mem_erase_iff
  have hm : ∀ q mf, Listed R.indexes q mf → Listed (applyPost ids R (.rmIndex l)).indexes q mf := by
    rintro q mf ⟨a, y, ⟨h1, h2⟩, h3⟩
    refine ⟨a, y, ⟨(hput _).mpr ⟨?_, h1⟩, ?_⟩, h3⟩
    · rintro rfl
      exact h2 ⟨_, x, hL.there, by rw [hL.sup]; exact hl⟩
    · rintro ⟨b, z, h4, h5⟩
      exact h2 ⟨b, z, ((hput _).mp h4).2, h5⟩
  refine ⟨h.change rfl rfl (fun a y ha => h.known.indexes a y ((hput _).mp ha).2) (BMap.sorted_erase h.isort l)
    (fun a y ha => h.lists a y ((hput _).mp ha).2) hm (fun _ => ⟨rfl, rfl⟩)
    (fun k j hk q mf h1 => hm q mf (h.listed k j hk q mf h1)),
    hL.sup, (hput _).mpr ⟨?_, hL.there⟩, hL.new, hL.live, hL.base, fun a y ha => hL.origin a y ((hput _).mp ha).2,
    hL.cover, hL.cover0⟩
  intro h1
  have h1 : ids.indexId x = l := h1
  exact hL.new (h1 ▸ hl)

/-- It lists the indexes. -/
theorem Early.seen (h : Early R0 R) : Seen R0 R (BMap.keys R.indexes) := by
  refine ⟨fun e he => BMap.mem_keys_of_mem (h.base e he), fun i hi => ?_⟩
  obtain ⟨y, h2⟩ := BMap.mem_keys_iff.mp hi
  exact ⟨y, BMap.mem_of_get? h2⟩

omit [DecidableEq ι] in
/-- It lists the packs. -/
theorem Core.gathers (h : Core C ids U X S R0 J R alone) (I : List Id) (w : World Id) :
    Gathers R0 R I ⟨w, BMap.keys R.packs, [], .gather ⟨I, []⟩⟩ ⟨I, []⟩ := by
  refine ⟨rfl, BMap.sorted_nil, fun e he => (by cases he), ?_, ?_, fun q hq => hq, ?_⟩
  · intro i hi y hy q hq
    obtain ⟨mf, h2⟩ := BMap.mem_keys_iff.mp hq
    obtain ⟨bs, h3, _⟩ := (h.lists i y hy).2 q mf (BMap.mem_of_get? h2)
    exact .inl (BMap.mem_keys_of_mem h3)
  · exact fun q hq => .inl (keys_mono h.base hq)
  · show (BMap.keys R.packs ++ ([] ++ [])).Nodup
    rw [List.append_nil, List.append_nil]
    exact h.psort.nodup

omit [DecidableEq ι] in
/-- It has read every pack. -/
theorem Gathers.whole (h : Core C ids U X S R0 J R alone) {s : Rebuild.State Id} {x : Index Id}
    (hG : Gathers R0 R I s x) (ht : s.todo = []) (hq : s.queue = []) : Whole R0 R I x := by
  have hfrom : ∀ q mf, (q, mf) ∈ x.packs → ∃ bs, (q, bs) ∈ R.packs ∧ Pack.manifestOf bs = mf := fun q mf he =>
    (hG.from_packs (q, mf) (List.mem_append_right _ he)).imp fun bs hb => ⟨hb.1, hb.2.symm⟩
  refine ⟨hG.sup, hG.sorted, hfrom, ?_, ?_⟩
  · rintro i hi y hy ⟨q, mf⟩ he
    have := hG.cover i hi y hy q (BMap.mem_keys_of_mem he)
    rw [ht, hq] at this
    rcases this with h1 | h1 | h1
    · cases h1
    · cases h1
    · obtain ⟨mf', h2⟩ := Option.isSome_iff_exists.mp (BMap.get?_isSome_iff.mpr h1)
      have h2 := BMap.mem_of_get? h2
      obtain ⟨bs, h3, h4⟩ := hfrom q mf' h2
      obtain ⟨bs', h5, h6⟩ := (h.lists i y hy).2 q mf he
      have : bs' = bs := h.ledger.one q bs' bs h5 h3
      subst this
      rw [← h6, h4]
      exact h2
  · intro q hq0
    have := hG.cover0 q hq0
    rw [ht, hq] at this
    rcases this with h1 | h1 | h1
    · cases h1
    · cases h1
    · exact h1

/-! ## Runs of all of them -/

/-- What is known of a process that has started, and of what the repository would hold had it run alone. -/
structure Runs (C : Codec Id) (ids : Ids Id) (cores : Nat) (U : Pack Id → Prop) (X : Index Id → Prop)
    (S : Snapshot Id → Prop) (R0 : Repo Id) (p : Proc Id) (A : Repo Id) : Prop where
  brings : Brings C ids cores U X S R0 p.job
  run : ∃ r done, p.job.posts = done ++ p.left ∧ Reachable p.job.c p.job.w p.job.main (p.s.on r) ∧
    (done ≠ [] → p.s.joined = true) ∧ A = done.foldl (applyPost ids) r

structure Inv (C : Codec Id) (ids : Ids Id) (cores : Nat) (U : Pack Id → Prop) (X : Index Id → Prop)
    (S : Snapshot Id → Prop) (R0 : Repo Id) (m : Mixed ι Id) (alone : ι → Repo Id) : Prop where
  runs : ∀ k p, m.shared.proc k = some p → Runs C ids cores U X S R0 p (alone k)
  core : Core C ids U X S R0 (jobs m.shared) m.shared.repo alone
  phase : AtPhase ids X R0 m.shared.repo m.rb

/-- What is asked of the processes together: no two backups add the same new blob, and the index of the rebuild is
neither mistaken for another nor one that was superseded at first. -/
structure Together (ids : Ids Id) (X : Index Id → Prop) (R0 : Repo Id) (m : Mixed ι Id) : Prop where
  apart : NewApart (jobs m.shared)
  index : ∀ x, m.rb.index = some x → X x ∧ ¬ Superseded R0.indexes (ids.indexId x)

/-- What is asked of the repository at first: every pack that is stored is listed by a live index, and no other pack
is listed by any index. -/
structure Tidy (R0 : Repo Id) : Prop where
  packs : ∀ q bs, (q, bs) ∈ R0.packs → Listed R0.indexes q (Pack.manifestOf bs)
  indexes : ∀ i x, (i, x) ∈ R0.indexes → ∀ q mf, (q, mf) ∈ x.packs → Listed R0.indexes q mf

variable {may : Job Id → Prop}

theorem Together.back {m m' : Mixed ι Id} (hs : Mixed.Step ids may m m') (h : Together ids X R0 m') :
    Together ids X R0 m := by
  cases hs with
  | other m m' r hs =>
    refine ⟨?_, h.index⟩
    have job : ∀ k j, jobs m k = some j → jobs m' k = some j := by
      intro k j hk
      cases hs with
      | start i j' h1 h2 h3 =>
        rw [jobs_start]
        have : k ≠ i := by
          rintro rfl
          obtain ⟨p, hp, _⟩ := jobs_some hk
          rw [h1] at hp; cases hp
        rwa [Function.update_of_ne this]
      | run i p t h1 h2 h3 => rwa [jobs_same (p' := { p with s := t }) h1 rfl]
      | post i p o rest h1 h2 h3 => rwa [jobs_same (p' := { p with left := rest }) h1 rfl]
    exact fun i k j j' h1 h2 => h.apart i k j j' (job _ _ h1) (job _ _ h2)
  | indexes m cwd => exact ⟨h.apart, fun x hx => by cases hx⟩
  | packs m I cwd => exact ⟨h.apart, fun x hx => by cases hx⟩
  | post m I s x o rest hp => exact ⟨h.apart, h.index⟩
  | run m I s t left hr =>
    refine ⟨h.apart, fun x hx => h.index x ?_⟩
    revert hx
    cases hr with
    | read pre p post bs h1 h2 => exact id
    | recv p m q y h1 h2 h3 =>
      have h2 : s.phase = .gather y := h2
      simp [Rebuilder.index, h2]
    | recvDup p m q y h1 h2 h3 =>
      have h2 : s.phase = .gather y := h2
      simp [Rebuilder.index, h2]
    | write y h1 h2 h3 h4 =>
      have h3 : s.phase = .gather y := h3
      simp [Rebuilder.index, h3]
    | copy y h1 =>
      have h1 : s.phase = .wrote y := h1
      simp [Rebuilder.index, h1]
    | store y h1 h2 =>
      have h1 : s.phase = .copied y := h1
      simp [Rebuilder.index, h1]
    | drop y h1 =>
      have h1 : s.phase = .stored y := h1
      simp [Rebuilder.index, h1]
    | move y h1 h2 =>
      have h1 : s.phase = .copied y := h1
      simp [Rebuilder.index, h1]
    | discard y h1 h2 => cases h2

/-- A step of another process. -/
theorem inv_other (hU : Apart ids U X S) (ht : Tidy R0)
    (hmay : ∀ j, may j → Healthy C ids j.w.repo → Known ids U X S j.w.repo → Brings C ids cores U X S R0 j)
    {m m' : Shared ι Id} {alone : ι → Repo Id} (h : Inv C ids cores U X S R0 ⟨m, rb⟩ alone) (hd : NewApart (jobs m))
    (hs : Shared.Step may m m') : ∃ alone', Inv C ids cores U X S R0 ⟨m', rb⟩ alone' := by
  have hcore : Core C ids U X S R0 (jobs m) m.repo alone := h.core
  have hphase : AtPhase ids X R0 m.repo rb := h.phase
  have hruns : ∀ k p, m.proc k = some p → Runs C ids cores U X S R0 p (alone k) := h.runs
  have hbr : ∀ k j, jobs m k = some j → Brings C ids cores U X S R0 j := by
    intro k j hk
    obtain ⟨p, hp, rfl⟩ := jobs_some hk
    exact (hruns k p hp).brings
  have keep : ∀ {i : ι} {p p' : Proc Id} {A' R' : Repo Id}, m.proc i = some p → p'.job = p.job →
      Runs C ids cores U X S R0 p' A' → Core C ids U X S R0 (jobs m) R' (Function.update alone i A') →
      AtPhase ids X R0 R' rb →
      ∃ alone', Inv C ids cores U X S R0 ⟨⟨R', Function.update m.proc i (some p')⟩, rb⟩ alone' := by
    intro i p p' A' R' hi hj hr hc hp
    refine ⟨Function.update alone i A', ?_, by rw [jobs_same hi hj]; exact hc, hp⟩
    intro k q hk
    rcases C65.upd_some hk with ⟨rfl, rfl⟩ | ⟨hne, hk⟩
    · rw [Function.update_self]; exact hr
    · rw [Function.update_of_ne hne]; exact hruns k q hk
  cases hs with
  | start i j h1 h2 h3 =>
    have hB := hmay j h3 (by rw [h2]; exact hcore.healthy) (by rw [h2]; exact hcore.known)
    have hn : jobs m i = none := by unfold jobs; rw [h1]; rfl
    refine ⟨Function.update alone i m.repo, ?_, ?_, hphase⟩
    · intro k q hk
      rcases C65.upd_some hk with ⟨rfl, rfl⟩ | ⟨hne, hk⟩
      · rw [Function.update_self]
        refine ⟨hB, m.repo, [], rfl, ?_, by simp, rfl⟩
        have : (init j.c j.w j.main).on m.repo = init j.c j.w j.main := by rw [← h2]; rfl
        simp only [this]
        exact .refl
      · rw [Function.update_of_ne hne]
        exact hruns k q hk
    · rw [jobs_start]
      exact hcore.start hn ht.packs (fun x hx => by rw [← h2]; exact hB.new x hx)
  | run i p t h1 h2 h3 =>
    obtain ⟨o, f1, f2, f3⟩ := step_frame h3
    rw [on_repo] at f1
    have hR := hruns i p h1
    have hB := hR.brings
    obtain ⟨r, done, e1, e2, e3, e4⟩ := hR.run
    have hdone : done = [] := by
      by_contra hne
      rw [e3 hne] at h2
      cases h2
    subst hdone
    rw [List.foldl_nil] at e4
    have e2' : Reachable p.job.c p.job.w p.job.main (t.on (puts r o)) := .tail e2 (f3 r)
    have hR' : Runs C ids cores U X S R0 { p with s := t } (puts r o) :=
      ⟨hR.brings, puts r o, [], e1, e2', by simp, rfl⟩
    have hs0 := hB.reach e2
    have hs1 := hB.reach e2'
    have hji := jobs_of h1
    rw [f1]
    cases o with
    | none =>
      refine keep h1 rfl hR' ?_ hphase
      have : Function.update alone i (puts r none) = alone := by
        show Function.update alone i r = alone
        rw [← e4, Function.update_eq_self]
      rw [this]
      exact hcore
    | some it =>
      obtain ⟨u1, u2, u3⟩ := f2 it rfl
      have heq : puts r (some it) = putItem (alone i) it := by rw [e4]; rfl
      have heff := effect hB.run hs0
      rw [on_repo, ← e4] at heff
      cases it with
      | pack q bs =>
        have hin : (q, bs) ∈ (t.on (puts r (some (.pack q bs)))).world.repo.packs :=
          (BMap.mem_insert_iff (by rw [← e4]; exact heff.psort)).mpr (.inl ⟨rfl, rfl⟩)
        obtain ⟨a1, a2⟩ := hB.named hs1 hin
        obtain ⟨news, g1, g2, g3⟩ := stored_packs hB.run hB.ledger hB.fresh hB.ups hs0
        have hold : ∀ e ∈ m.repo.packs, e ∈ (putItem m.repo (.pack q bs)).packs := fun e he =>
          (mem_put hcore.psort (fun v hv => hU.packs _ _ (hcore.known.packs _ _ hv).2 a2
            ((hcore.known.packs _ _ hv).1.symm.trans a1)) e).mpr (.inr he)
        refine keep h1 rfl hR' ?_ (hphase.pack rfl hold)
        rw [heq]
        refine hcore.pack (cores := cores) hU hd hbr hji a1 a2 heff.psort heff.keep g1 g2 ?_
        rintro p' cs (h4 | h4)
        · refine g3 p' cs (.inl ?_)
          rw [on_repo, ← e4]; exact h4
        · cases h4
          exact g3 q bs (.inr u1)
      | index q x =>
        obtain ⟨b1, b2, news, b3⟩ := hB.stores hs0 hs1 (i := q) (x := x) u1 u2 u3
        rw [on_repo, heq] at b3
        have b1' : (alone i).indexes = p.job.w.repo.indexes := by rw [e4]; exact b1
        obtain ⟨c1, c2⟩ := hcore.index hU hphase hji hB b1' b2 b3
        refine keep h1 rfl hR' ?_ c2
        rw [heq]
        exact c1
  | post i p o rest h1 h2 h3 =>
    have hR := hruns i p h1
    have hB := hR.brings
    obtain ⟨r, done, e1, e2, e3, e4⟩ := hR.run
    have hids : p.job.c.ids = ids := by rw [hB.live]; rfl
    have hmem : o ∈ p.job.posts := by rw [e1, h3]; simp
    have hR' : Runs C ids cores U X S R0 { p with left := rest } (applyPost ids (alone i) o) :=
      ⟨hR.brings, r, done ++ [o], by rw [e1, h3]; simp, e2, fun _ => h2,
        by rw [e4, List.foldl_append]; rfl⟩
    have hji := jobs_of h1
    rw [hids]
    obtain ⟨sn, rfl, hsn⟩ := hB.posts o hmem
    have hposts : ∀ l : List (Post Id), (∀ o ∈ l, ∃ sn, o = .putSnap sn) → ∀ r : Repo Id,
        (l.foldl (applyPost ids) r).packs = r.packs ∧ (l.foldl (applyPost ids) r).indexes = r.indexes := by
      intro l
      induction l with
      | nil => exact fun _ r => ⟨rfl, rfl⟩
      | cons a l ih =>
        intro hl r
        obtain ⟨sn, rfl⟩ := hl _ List.mem_cons_self
        exact ih (fun o ho => hl o (List.mem_cons_of_mem _ ho)) _
    obtain ⟨p1, p2⟩ := hposts done (fun o ho => by
      obtain ⟨sn, h4, _⟩ := hB.posts o (by rw [e1]; exact List.mem_append_left _ ho)
      exact ⟨sn, h4⟩) r
    rw [← e4] at p1 p2
    have hread := hB.reads _ (hB.reach e2) h2 m.repo (fun b hb => has_mono
      (fun e he => hcore.packs i _ hji e (by rw [p1]; exact he))
      (fun q mf hl => hcore.listed i _ hji q mf (by rw [p2]; exact hl)) hb) sn hmem
    exact keep h1 rfl hR' (hcore.snap hU hsn hread) (hphase.pack rfl (fun e he => he))

theorem inv_step (hU : Apart ids U X S) (ht : Tidy R0)
    (hmay : ∀ j, may j → Healthy C ids j.w.repo → Known ids U X S j.w.repo → Brings C ids cores U X S R0 j)
    {m m' : Mixed ι Id} {alone : ι → Repo Id} (h : Inv C ids cores U X S R0 m alone) (hT : Together ids X R0 m')
    (hs : Mixed.Step ids may m m') : ∃ alone', Inv C ids cores U X S R0 m' alone' := by
  have hT0 := hT.back hs
  cases hs with
  | other m m' r hs => exact inv_other hU ht hmay h hT0.apart hs
  | indexes m cwd =>
    have hE : Early R0 m.repo := h.phase
    exact ⟨alone, h.runs, h.core, hE, hE.seen⟩
  | packs m I cwd =>
    obtain ⟨hE, hS⟩ := (h.phase : Early R0 m.repo ∧ Seen R0 m.repo I)
    refine ⟨alone, h.runs, h.core, ?_, hE, hS, h.core.gathers I _⟩
    intro o ho
    obtain ⟨i, hi, rfl⟩ := List.mem_map.mp ho
    exact ⟨i, hi, rfl⟩
  | post m I s x o rest hp =>
    obtain ⟨h1, h2⟩ := h.phase
    simp only [hp] at h2
    obtain ⟨i, hi, rfl⟩ := h1 o List.mem_cons_self
    obtain ⟨c1, c2⟩ := h.core.rmIndex h2 hi
    refine ⟨alone, h.runs, c1, fun o ho => h1 o (List.mem_cons_of_mem _ ho), ?_⟩
    simp only [hp]
    exact c2
  | run m I s t left hr =>
    obtain ⟨hl, hph⟩ := h.phase
    cases hr with
    | read pre p post bs h1 h2 =>
      have h1 : s.todo = pre ++ p :: post := h1
      have h2 : m.repo.packs.get? p = some bs := h2
      refine ⟨alone, h.runs, h.core, hl, ?_⟩
      cases hp : s.phase with
      | gather x =>
        simp only [hp, onRepo] at hph ⊢
        obtain ⟨hE, hS, hG⟩ := hph
        have mv : ∀ q, (q ∈ s.todo ∨ q ∈ s.queue.map Prod.fst ∨ q ∈ BMap.keys x.packs) →
            q ∈ pre ++ post ∨ q ∈ (s.queue ++ [(p, Pack.manifestOf bs)]).map Prod.fst ∨ q ∈ BMap.keys x.packs := by
          intro q hq
          rw [h1] at hq
          simp only [List.mem_append, List.mem_cons, List.map_append, List.map_cons, List.map_nil] at hq ⊢
          rcases hq with (h3 | h3 | h3) | h3 | h3
          · exact .inl (.inl h3)
          · exact .inr (.inl (.inr (.inl h3)))
          · exact .inl (.inr h3)
          · exact .inr (.inl (.inl h3))
          · exact .inr (.inr h3)
        refine ⟨hE, hS, hG.sup, hG.sorted, ?_, fun i hi y hy q hq => mv q (hG.cover i hi y hy q hq),
          fun q hq => mv q (hG.cover0 q hq), ?_, ?_⟩
        rotate_left
        · intro q hq
          refine hG.todo q ?_
          rw [h1]
          rcases List.mem_append.mp hq with h3 | h3
          · exact List.mem_append_left _ h3
          · exact List.mem_append_right _ (List.mem_cons_of_mem _ h3)
        · refine (List.Perm.nodup_iff ?_).mp hG.nodup
          rw [h1, List.map_append]
          simp only [List.append_assoc, List.map_cons, List.map_nil, List.cons_append, List.nil_append]
          refine List.Perm.append_left pre ?_
          refine List.Perm.trans List.perm_middle.symm ?_
          refine List.Perm.append_left post ?_
          exact List.perm_middle.symm
        intro e he
        rcases List.mem_append.mp he with h3 | h3
        · rcases List.mem_append.mp h3 with h3 | h3
          · exact hG.from_packs e (List.mem_append_left _ h3)
          · rw [List.mem_singleton] at h3
            subst h3
            exact ⟨bs, BMap.mem_of_get? h2, rfl⟩
        · exact hG.from_packs e (List.mem_append_right _ h3)
      | wrote x => simp only [hp, onRepo] at hph ⊢; exact hph
      | copied x => simp only [hp, onRepo] at hph ⊢; exact hph
      | stored x => simp only [hp, onRepo] at hph ⊢; exact hph
      | uploaded x => simp only [hp, onRepo] at hph ⊢; exact hph
      | dead => simp only [hp] at hph
    | recv p mf q x h1 h2 h3 =>
      have h1 : s.queue = (p, mf) :: q := h1
      have h2 : s.phase = .gather x := h2
      simp only [h2] at hph
      obtain ⟨hE, hS, hG⟩ := hph
      have mv : ∀ l, (l ∈ s.todo ∨ l ∈ s.queue.map Prod.fst ∨ l ∈ BMap.keys x.packs) →
          l ∈ s.todo ∨ l ∈ q.map Prod.fst ∨ l ∈ BMap.keys (BMap.insert p mf x.packs) := by
        intro l hl
        rw [h1, List.map_cons, List.mem_cons] at hl
        rcases hl with h4 | (h4 | h4) | h4
        · exact .inl h4
        · exact .inr (.inr (BMap.keys_insert_mem.mpr (.inl h4)))
        · exact .inr (.inl h4)
        · exact .inr (.inr (BMap.keys_insert_mem.mpr (.inr h4)))
      refine ⟨alone, h.runs, h.core, hl, hE, hS, hG.sup, BMap.sorted_insert hG.sorted _ _, ?_,
        fun i hi y hy q hq => mv q (hG.cover i hi y hy q hq), fun q hq => mv q (hG.cover0 q hq), hG.todo, ?_⟩
      rotate_left
      · have hn := hG.nodup
        rw [h1, List.map_cons] at hn
        have hperm : (BMap.keys (BMap.insert p mf x.packs)).Perm (p :: BMap.keys x.packs) := by
          refine (List.perm_ext_iff_of_nodup (BMap.sorted_insert hG.sorted _ _).nodup
            (List.nodup_cons.mpr ⟨h3, hG.sorted.nodup⟩)).mpr fun l => ?_
          rw [BMap.keys_insert_mem, List.mem_cons]
        refine (List.Perm.nodup_iff (List.Perm.append_left s.todo ?_)).mp hn
        exact List.perm_middle.symm.trans (List.Perm.append_left _ hperm.symm)
      rintro ⟨a, b⟩ he
      rcases List.mem_append.mp he with h4 | h4
      · exact hG.from_packs _ (List.mem_append_left _ (by rw [h1]; exact List.mem_cons_of_mem _ h4))
      · rcases BMap.mem_insert_of h4 with ⟨rfl, rfl⟩ | h4
        · exact hG.from_packs _ (List.mem_append_left _ (by rw [h1]; exact List.mem_cons_self))
        · exact hG.from_packs _ (List.mem_append_right _ h4)
    | recvDup p mf q x h1 h2 h3 =>
      have h1 : s.queue = (p, mf) :: q := h1
      have h2 : s.phase = .gather x := h2
      simp only [h2] at hph
      have hn := hph.2.2.nodup
      rw [h1, List.nodup_append] at hn
      have hn := hn.2.1
      rw [List.nodup_append] at hn
      exact absurd rfl (hn.2.2 p List.mem_cons_self p h3)
    | write x h1 h2 h3 h4 =>
      have h1 : s.todo = [] := h1
      have h2 : s.queue = [] := h2
      have h3 : s.phase = .gather x := h3
      simp only [h3] at hph
      exact ⟨alone, h.runs, h.core, hl, hph.1, hph.2.1, hph.2.2.whole h.core h1 h2⟩
    | copy x h1 =>
      have h1 : s.phase = .wrote x := h1
      simp only [h1] at hph
      exact ⟨alone, h.runs, h.core, hl, hph⟩
    | store x h1 h2 =>
      have h1 : s.phase = .copied x := h1
      simp only [h1] at hph
      obtain ⟨g1, g2⟩ := hT.index x rfl
      obtain ⟨c1, c2⟩ := h.core.store hU hph.1 hph.2.1 hph.2.2 g1 g2
      exact ⟨alone, h.runs, c1, hl, c2⟩
    | drop x h1 =>
      have h1 : s.phase = .stored x := h1
      simp only [h1] at hph
      exact ⟨alone, h.runs, h.core, hl, hph⟩
    | move x h1 h2 =>
      have h1 : s.phase = .copied x := h1
      simp only [h1] at hph
      obtain ⟨g1, g2⟩ := hT.index x rfl
      obtain ⟨c1, c2⟩ := h.core.store hU hph.1 hph.2.1 hph.2.2 g1 g2
      exact ⟨alone, h.runs, c1, hl, c2⟩
    | discard x h1 h2 => cases h2

theorem inv (hU : Apart ids U X S) (hH : Healthy C ids R0) (hK : Known ids U X S R0) (ht : Tidy R0)
    (hmay : ∀ j, may j → Healthy C ids j.w.repo → Known ids U X S j.w.repo → Brings C ids cores U X S R0 j)
    {m : Mixed ι Id} (h : Mixed.Reachable ids may R0 m) (hT : Together ids X R0 m) :
    ∃ alone, Inv C ids cores U X S R0 m alone := by
  induction h with
  | refl =>
    refine ⟨fun _ => R0, by simp, ?_, fun e he => he, fun i x hx => .inl hx⟩
    refine ⟨hK, hH.packs_sorted, hH.indexes_sorted, hH.snapshots_sorted, ?_, ?_, fun e he => he, fun e he => he,
      fun k j hk => (by cases hk), fun k j hk => (by cases hk), fun q bs hq => .inl hq, fun k j hk => (by cases hk),
      fun q mf hl => hl, fun k j hk => (by cases hk), hH.readable⟩
    · exact hH.sound.ledger.mono (fun p bs hp => ⟨ht.packs p bs hp, hp⟩)
    · exact fun i x hx => ⟨hH.index_packs i x hx, fun q mf hq => hH.present q mf (ht.indexes i x hx q mf hq)⟩
  | tail _ hs ih =>
    obtain ⟨alone, hi⟩ := ih (hT.back hs)
    exact inv_step hU ht hmay hi hT hs

/-! ## The rebuild comes to its end -/

/-- From any state in which it reads, a rebuild can go on until its index is stored. -/
theorem gather_run {R : Repo Id} (n : Nat) : ∀ (s : Rebuild.State Id) (x : Index Id), s.world.repo = R →
    s.phase = .gather x → 2 * s.todo.length + s.queue.length = n → BMap.Sorted x.packs →
    (∀ q ∈ s.todo, q ∈ BMap.keys R.packs) → (s.todo ++ (s.queue.map Prod.fst ++ BMap.keys x.packs)).Nodup →
    (x.supersedes ≠ [] ∨ s.todo ≠ [] ∨ s.queue ≠ [] ∨ x.packs ≠ []) →
    ∃ t y, Relation.ReflTransGen (Rebuild.Step ids true) s t ∧ t.phase = .copied y ∧ t.world.repo = R ∧
      y.supersedes = x.supersedes ∧ BMap.Sorted y.packs ∧
      (∀ q mf, (q, mf) ∈ y.packs → (q, mf) ∈ x.packs ∨ (q, mf) ∈ s.queue ∨
        ∃ bs, (q, bs) ∈ R.packs ∧ mf = Pack.manifestOf bs) ∧
      ∀ q ∈ s.todo ++ (s.queue.map Prod.fst ++ BMap.keys x.packs), q ∈ BMap.keys y.packs := by
  induction n using Nat.strong_induction_on with
  | _ n ih =>
    intro s x hR hph hn hsort htodo hnd hne
    cases hq : s.queue with
    | cons e q =>
      obtain ⟨p, m⟩ := e
      rw [hq] at hn hnd
      have hnot : p ∉ BMap.keys x.packs := by
        rw [List.nodup_append] at hnd
        have := hnd.2.1
        rw [List.nodup_append] at this
        exact fun h => this.2.2 p List.mem_cons_self p h rfl
      have hperm : (BMap.keys (BMap.insert p m x.packs)).Perm (p :: BMap.keys x.packs) := by
        refine (List.perm_ext_iff_of_nodup (BMap.sorted_insert hsort _ _).nodup
          (List.nodup_cons.mpr ⟨hnot, hsort.nodup⟩)).mpr fun l => ?_
        rw [BMap.keys_insert_mem, List.mem_cons]
      have hin : BMap.insert p m x.packs ≠ [] := by
        intro h
        have : p ∈ BMap.keys (BMap.insert p m x.packs) := BMap.keys_insert_mem.mpr (.inl rfl)
        rw [h] at this
        cases this
      obtain ⟨t, y, h1, h2, h3, h4, h5, h6, h7⟩ := ih (2 * s.todo.length + q.length) (by rw [List.length_cons] at hn; omega)
        { s with queue := q, phase := .gather { x with packs := BMap.insert p m x.packs } }
        { x with packs := BMap.insert p m x.packs } hR rfl rfl
        (BMap.sorted_insert hsort _ _) htodo
        ((List.Perm.nodup_iff (List.Perm.append_left _
          (List.perm_middle.symm.trans (List.Perm.append_left _ hperm.symm)))).mp hnd) (.inr (.inr (.inr hin)))
      refine ⟨t, y, .head (.recv s p m q x hq hph hnot) h1, h2, h3, h4, h5, fun l mf hl => ?_, fun l hl => h7 l
        ((List.Perm.append_left _ (List.perm_middle.symm.trans (List.Perm.append_left _ hperm.symm))).subset hl)⟩
      rcases h6 l mf hl with h | h | h
      · rcases (BMap.mem_insert_iff hsort).mp h with ⟨rfl, rfl⟩ | h
        · exact .inr (.inl List.mem_cons_self)
        · exact .inl h.2
      · exact .inr (.inl (List.mem_cons_of_mem _ h))
      · exact .inr (.inr h)
    | nil =>
      rw [hq] at hn hnd hne
      cases ht : s.todo with
      | cons p post =>
        rw [ht] at hn hnd htodo
        obtain ⟨bs, hb⟩ := BMap.mem_keys_iff.mp (htodo p List.mem_cons_self)
        obtain ⟨t, y, h1, h2, h3, h4, h5, h6, h7⟩ := ih (2 * post.length + 1) (by rw [List.length_cons, List.length_nil] at hn; omega)
          { s with todo := [] ++ post, queue := s.queue ++ [(p, Pack.manifestOf bs)] } x hR hph
          (by rw [hq]; rfl) hsort (fun q hq => htodo q (List.mem_cons_of_mem _ hq))
          (by rw [hq]; exact (List.Perm.nodup_iff (List.perm_middle (l₁ := post)).symm).mp hnd)
          (.inr (.inr (.inl (by rw [hq]; exact List.cons_ne_nil _ _))))
        refine ⟨t, y, .head (.read s [] p post bs ht (by rw [hR]; exact hb)) h1, h2, h3, h4, h5, fun l mf hl => ?_, fun l hl => h7 l
          (by rw [hq]; exact (List.perm_middle (l₁ := post)).symm.subset hl)⟩
        rcases h6 l mf hl with h | h | h
        · exact .inl h
        · cases List.mem_singleton.mp (show (l, mf) ∈ [(p, Pack.manifestOf bs)] by rw [hq] at h; exact h)
          exact .inr (.inr ⟨bs, BMap.mem_of_get? hb, rfl⟩)
        · exact .inr (.inr h)
      | nil =>
        rw [ht] at hne
        have he : x.isEmpty = false := by
          simp only [Index.isEmpty, Bool.and_eq_false_iff, List.isEmpty_eq_false_iff]
          rcases hne with h | h | h | h
          · exact .inl h
          · exact absurd rfl h
          · exact absurd rfl h
          · exact .inr h
        exact ⟨_, x, .tail (.single (.write s x ht hq hph he)) (.copy _ x rfl), rfl, hR, rfl, hsort,
          fun l mf hl => .inl hl, fun l hl => hl⟩

/-- What the rebuild does alone, it does among the others. -/
theorem lift_rebuild {f : ι → Option (Proc Id)} {I : List Id} {left : List (Post Id)} {s t : Rebuild.State Id}
    (h : Relation.ReflTransGen (Rebuild.Step ids true) s t) :
    Relation.ReflTransGen (Mixed.Step ids may) ⟨⟨s.world.repo, f⟩, .running I s left⟩
      ⟨⟨t.world.repo, f⟩, .running I t left⟩ := by
  induction h with
  | refl => exact .refl
  | @tail u v _ hs ih => exact ih.tail (Mixed.Step.run ⟨u.world.repo, f⟩ I u v left hs)

theorem lift_removals {f : ι → Option (Proc Id)} {I : List Id} {s : Rebuild.State Id} {x : Index Id}
    (hs : s.phase = .uploaded x) (left : List (Post Id)) : ∀ R : Repo Id,
    Relation.ReflTransGen (Mixed.Step ids may) ⟨⟨R, f⟩, .running I s left⟩
      ⟨⟨left.foldl (applyPost ids) R, f⟩, .running I s []⟩ := by
  induction left with
  | nil => exact fun R => .refl
  | cons o rest ih => exact fun R => .head (Mixed.Step.post ⟨R, f⟩ I s x o rest hs) (ih _)

theorem lift_rebuild' {m : Shared ι Id} {I : List Id} {left : List (Post Id)} {s t : Rebuild.State Id}
    (h : Relation.ReflTransGen (Rebuild.Step ids true) (onRepo s m.repo) t) :
    ∃ u : Rebuild.State Id, u.phase = t.phase ∧ Relation.ReflTransGen (Mixed.Step ids may) ⟨m, .running I s left⟩
      ⟨⟨t.world.repo, m.proc⟩, .running I u left⟩ := by
  rcases Relation.ReflTransGen.cases_head h with h1 | ⟨u, h1, h2⟩
  · subst h1
    exact ⟨s, rfl, .refl⟩
  · exact ⟨t, rfl, .head (Mixed.Step.run m I s u left h1) (lift_rebuild h2)⟩

/-- At every instant the rebuild can go on to its end, if there is anything to index. -/
theorem Inv.completes {m : Mixed ι Id} {alone : ι → Repo Id} (h : Inv C ids cores U X S R0 m alone)
    (hne : R0.packs ≠ [] ∨ R0.indexes ≠ []) :
    ∃ m' x, Relation.ReflTransGen (Mixed.Step ids may) m m' ∧ m'.rb.finished x ∧ m'.shared.proc = m.shared.proc := by
  obtain ⟨m, rb⟩ := m
  have next : ∀ {a b : Mixed ι Id} {f : ι → Option (Proc Id)}, Mixed.Step ids may a b →
      (∃ m' y, Relation.ReflTransGen (Mixed.Step ids may) b m' ∧ m'.rb.finished y ∧ m'.shared.proc = f) →
      ∃ m' y, Relation.ReflTransGen (Mixed.Step ids may) a m' ∧ m'.rb.finished y ∧ m'.shared.proc = f := by
    rintro a b f hs ⟨m', y, h1, h2⟩
    exact ⟨m', y, .head hs h1, h2⟩
  have up : ∀ (R : Repo Id) (f : ι → Option (Proc Id)) I s left x, s.phase = .uploaded x →
      ∃ m' y, Relation.ReflTransGen (Mixed.Step ids may) (⟨⟨R, f⟩, .running I s left⟩ : Mixed ι Id) m' ∧
        m'.rb.finished y ∧ m'.shared.proc = f := by
    intro R f I s left x hs
    exact ⟨_, x, lift_removals hs left R, ⟨hs, rfl⟩, rfl⟩
  have cp : ∀ (R : Repo Id) (f : ι → Option (Proc Id)) I s left x, s.phase = .copied x →
      ∃ m' y, Relation.ReflTransGen (Mixed.Step ids may) (⟨⟨R, f⟩, .running I s left⟩ : Mixed ι Id) m' ∧
        m'.rb.finished y ∧ m'.shared.proc = f := by
    intro R f I s left x hs
    exact next (Mixed.Step.run ⟨R, f⟩ I s _ left (.move (onRepo s R) x hs rfl)) (up _ f I _ left x rfl)
  have gt : ∀ (m : Shared ι Id) I s left x, s.phase = .gather x → Early R0 m.repo → Seen R0 m.repo I →
      Gathers R0 m.repo I s x →
      ∃ m' y, Relation.ReflTransGen (Mixed.Step ids may) (⟨m, .running I s left⟩ : Mixed ι Id) m' ∧
        m'.rb.finished y ∧ m'.shared.proc = m.proc := by
    intro m I s left x hs hE hS hG
    have hne' : x.supersedes ≠ [] ∨ s.todo ≠ [] ∨ s.queue ≠ [] ∨ x.packs ≠ [] := by
      rcases hne with h1 | h1
      · obtain ⟨e, he⟩ := List.exists_mem_of_ne_nil _ h1
        rcases hG.cover0 e.1 (List.mem_map.mpr ⟨e, he, rfl⟩) with h2 | h2 | h2
        · exact .inr (.inl (List.ne_nil_of_mem h2))
        · obtain ⟨e', h3, _⟩ := List.mem_map.mp h2
          exact .inr (.inr (.inl (List.ne_nil_of_mem h3)))
        · obtain ⟨e', h3, _⟩ := List.mem_map.mp h2
          exact .inr (.inr (.inr (List.ne_nil_of_mem h3)))
      · obtain ⟨e, he⟩ := List.exists_mem_of_ne_nil _ h1
        exact .inl (by rw [hG.sup]; exact List.ne_nil_of_mem (hS.base e he))
    obtain ⟨t, y, h1, h2, _⟩ := gather_run (ids := ids) (R := m.repo) _ (onRepo s m.repo) x rfl hs rfl hG.sorted
      hG.todo hG.nodup hne'
    obtain ⟨u, hu, h3⟩ := lift_rebuild' (may := may) (I := I) (left := left) h1
    obtain ⟨m', z, h4, h5⟩ := cp t.world.repo m.proc I u left y (hu.trans h2)
    exact ⟨m', z, h3.trans h4, h5⟩
  cases rb with
  | no =>
    have hE : Early R0 m.repo := h.phase
    exact next (Mixed.Step.indexes m ⟨none, [], []⟩) (next (Mixed.Step.packs m _ _)
      (gt m _ _ _ _ rfl hE hE.seen (h.core.gathers _ _)))
  | listed I c =>
    obtain ⟨hE, hS⟩ := (h.phase : Early R0 m.repo ∧ Seen R0 m.repo I)
    exact next (Mixed.Step.packs m _ _) (gt m _ _ _ _ rfl hE hS (h.core.gathers _ _))
  | running I s left =>
    obtain ⟨hl, hph⟩ := h.phase
    cases hp : s.phase with
    | gather x => simp only [hp] at hph; exact gt m I s left x hp hph.1 hph.2.1 hph.2.2
    | wrote x => exact next (Mixed.Step.run m I s _ left (.copy (onRepo s m.repo) x hp)) (cp _ _ I _ left x rfl)
    | copied x => exact cp _ _ I s left x hp
    | stored x => exact next (Mixed.Step.run m I s _ left (.drop (onRepo s m.repo) x hp)) (up _ _ I _ left x rfl)
    | uploaded x => exact up _ _ I s left x hp
    | dead => simp only [hp] at hph

end Backpak.Rebuilding
