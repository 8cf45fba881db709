import Verif.Lemmas.Rebuilding
import Verif.Model.Rebuilds

/-!
# Several rebuild-indexes beside backups: what has been listed stays listed

Indexes are numbered in the order they were first made. What a rebuild's index supersedes was made before it, and it
lists all of that; so whatever is removed, something made no earlier still lists what it listed.
-/

namespace Backpak.Rebuilds

open Spec Pipeline Rebuilding
open C65 (Apart Known mem_put)
open Beside (own gives Unlisted Adds NewApart jobs jobs_of jobs_some jobs_same jobs_start upd_job)

variable {ι κ Id : Type} [DecidableEq ι] [DecidableEq κ] [LinearOrder Id]

/-- The indexes made (`G`) and stored (`T`) so far, numbered. -/
structure Hist (ids : Ids Id) (X : Index Id → Prop) (R0 R : Repo Id) (G T : Index Id → Prop) (rank : Index Id → Nat)
    (N : Nat) : Prop where
  inX : ∀ x, G x → X x
  below : ∀ x, G x → rank x < N
  sub : ∀ x, T x → G x
  pres : ∀ i x, (i, x) ∈ R.indexes → i = ids.indexId x ∧ T x
  first : ∀ i x, (i, x) ∈ R0.indexes → T x
  good : ∀ i x, (i, x) ∈ R.indexes → (i, x) ∈ R0.indexes ∨ ¬ Superseded R0.indexes i
  chain : ∀ x, G x → (∃ i, (i, x) ∈ R0.indexes) ∨ ∀ i ∈ x.supersedes, ∃ z, G z ∧ ids.indexId z = i ∧
    rank z < rank x ∧ ∀ e ∈ z.packs, e ∈ x.packs
  kept : ∀ y, T y → ∀ e ∈ y.packs, ∃ z, (ids.indexId z, z) ∈ R.indexes ∧ ¬ Superseded R0.indexes (ids.indexId z) ∧
    e ∈ z.packs ∧ rank y ≤ rank z

variable {C : Codec Id} {ids : Ids Id} {cores : Nat} {U : Pack Id → Prop} {X : Index Id → Prop}
  {S : Snapshot Id → Prop} {R0 R R' : Repo Id} {j : Job Id} {J : ι → Option (Job Id)} {alone : ι → Repo Id}
  {I : List Id} {rb : Rebuilder Id} {G T G' T' : Index Id → Prop} {rank rank' : Index Id → Nat} {N N' : Nat}

/-- What an index lists that was not superseded at first is listed by a live one. -/
theorem Hist.live (hU : Apart ids U X S) (h : Hist ids X R0 R G T rank N) {q : Id} {mf : Manifest Id} (n : Nat) :
    ∀ z, N - rank z = n → (ids.indexId z, z) ∈ R.indexes → ¬ Superseded R0.indexes (ids.indexId z) →
      (q, mf) ∈ z.packs → Listed R.indexes q mf := by
  induction n using Nat.strong_induction_on with
  | _ n ih =>
    intro z hn hz hg hq
    by_cases hs : Superseded R.indexes (ids.indexId z)
    · obtain ⟨k, w, hw, hk⟩ := hs
      obtain ⟨rfl, hT⟩ := h.pres _ _ hw
      rcases h.good _ _ hw with h1 | h1
      · exact absurd ⟨_, w, h1, hk⟩ hg
      · rcases h.chain w (h.sub _ hT) with ⟨i, h2⟩ | h2
        · exact absurd ⟨i, w, h2, hk⟩ hg
        · obtain ⟨z', h3, h4, h5, h6⟩ := h2 _ hk
          have : z' = z := hU.indexes _ _ (h.inX _ h3) (h.inX _ (h.sub _ (h.pres _ _ hz).2)) h4
          subst this
          have := h.below _ (h.sub _ hT)
          exact ih (N - rank w) (by omega) w rfl hw h1 (h6 _ hq)
    · exact ⟨_, z, ⟨hz, hs⟩, hq⟩

/-- Whatever was ever stored, what it lists is listed. -/
theorem Hist.listed (hU : Apart ids U X S) (h : Hist ids X R0 R G T rank N) {y : Index Id} (hy : T y) {q : Id}
    {mf : Manifest Id} (hq : (q, mf) ∈ y.packs) : Listed R.indexes q mf := by
  obtain ⟨z, h1, h2, h3, _⟩ := h.kept y hy _ hq
  exact h.live hU _ z rfl h1 h2 h3

theorem Hist.mono (hU : Apart ids U X S) (h : Hist ids X R0 R G T rank N) (h' : Hist ids X R0 R' G' T' rank' N')
    (ht : ∀ x, T x → T' x) {q : Id} {mf : Manifest Id} (hl : Listed R.indexes q mf) : Listed R'.indexes q mf := by
  obtain ⟨i, x, ⟨h1, _⟩, h2⟩ := hl
  exact h'.listed hU (ht _ (h.pres _ _ h1).2) h2

theorem Hist.same (h : Hist ids X R0 R G T rank N) (hi : R'.indexes = R.indexes) : Hist ids X R0 R' G T rank N :=
  ⟨h.inX, h.below, h.sub, by rw [hi]; exact h.pres, h.first, by rw [hi]; exact h.good, h.chain,
    by rw [hi]; exact h.kept⟩

open Classical in
/-- An index is made. -/
theorem Hist.know (h : Hist ids X R0 R G T rank N) {x : Index Id} (hX : X x)
    (hc : ∀ i ∈ x.supersedes, ∃ z, G z ∧ ids.indexId z = i ∧ ∀ e ∈ z.packs, e ∈ x.packs) :
    ∃ G' rank' N', Hist ids X R0 R G' T rank' N' ∧ (∀ y, G y → G' y) ∧ G' x := by
  by_cases hx : G x
  · exact ⟨G, rank, N, h, fun _ h => h, hx⟩
  have hne : ∀ y, G y → y ≠ x := by rintro y hy rfl; exact hx hy
  have hr : ∀ y, G y → (if y = x then N else rank y) = rank y := fun y hy => if_neg (hne y hy)
  refine ⟨fun y => G y ∨ y = x, fun y => if y = x then N else rank y, N + 1, ?_, fun y hy => .inl hy, .inr rfl⟩
  refine ⟨?_, ?_, fun y hy => .inl (h.sub y hy), h.pres, h.first, h.good, ?_, ?_⟩
  · rintro y (hy | rfl)
    · exact h.inX y hy
    · exact hX
  · rintro y (hy | rfl)
    · have := h.below y hy
      rw [hr y hy]
      omega
    · rw [if_pos rfl]; omega
  · rintro y (hy | rfl)
    · refine (h.chain y hy).imp_right fun h1 i hi => ?_
      obtain ⟨z, h2, h3, h4, h5⟩ := h1 i hi
      exact ⟨z, .inl h2, h3, by rw [hr z h2, hr y hy]; exact h4, h5⟩
    · refine .inr fun i hi => ?_
      obtain ⟨z, h2, h3, h4⟩ := hc i hi
      exact ⟨z, .inl h2, h3, by rw [hr z h2, if_pos rfl]; exact h.below z h2, h4⟩
  · intro y hy e he
    obtain ⟨z, h1, h2, h3, h4⟩ := h.kept y hy e he
    exact ⟨z, h1, h2, h3, by rw [hr y (h.sub y hy), hr z (h.sub _ (h.pres _ _ h1).2)]; exact h4⟩

/-- An index that was made is stored. -/
theorem Hist.put (h : Hist ids X R0 R G T rank N) {x : Index Id} (hx : G x)
    (hput : ∀ e, e ∈ R'.indexes ↔ e = (ids.indexId x, x) ∨ e ∈ R.indexes)
    (hs : ¬ Superseded R0.indexes (ids.indexId x)) : Hist ids X R0 R' G (fun y => T y ∨ y = x) rank N := by
  refine ⟨h.inX, h.below, ?_, ?_, fun i y hy => .inl (h.first i y hy), ?_, h.chain, ?_⟩
  · rintro y (hy | rfl)
    · exact h.sub y hy
    · exact hx
  · intro i y hy
    rcases (hput _).mp hy with h1 | h1
    · cases h1; exact ⟨rfl, .inr rfl⟩
    · exact ⟨(h.pres i y h1).1, .inl (h.pres i y h1).2⟩
  · intro i y hy
    rcases (hput _).mp hy with h1 | h1
    · cases h1; exact .inr hs
    · exact h.good i y h1
  · rintro y (hy | rfl) e he
    · obtain ⟨z, h1, h2⟩ := h.kept y hy e he
      exact ⟨z, (hput _).mpr (.inr h1), h2⟩
    · exact ⟨y, (hput _).mpr (.inl rfl), hs, he, Nat.le_refl _⟩

/-- An index that a stored one supersedes is removed. -/
theorem Hist.remove (hU : Apart ids U X S) (h : Hist ids X R0 R G T rank N) {x : Index Id} (hx : T x) {l : Id}
    (hl : l ∈ x.supersedes) (hput : ∀ e, e ∈ R'.indexes ↔ e.1 ≠ l ∧ e ∈ R.indexes) : Hist ids X R0 R' G T rank N := by
  refine ⟨h.inX, h.below, h.sub, fun i y hy => h.pres i y ((hput _).mp hy).2, h.first,
    fun i y hy => h.good i y ((hput _).mp hy).2, h.chain, ?_⟩
  intro y hy e he
  obtain ⟨z, h1, h2, h3, h4⟩ := h.kept y hy e he
  by_cases hz : ids.indexId z = l
  · rcases h.chain x (h.sub x hx) with ⟨i, h5⟩ | h5
    · exact absurd ⟨i, x, h5, hz ▸ hl⟩ h2
    · obtain ⟨z', h6, h7, h8, h9⟩ := h5 l hl
      have : z' = z := hU.indexes _ _ (h.inX _ h6) (h.inX _ (h.sub _ (h.pres _ _ h1).2)) (h7.trans hz.symm)
      subst this
      obtain ⟨w, g1, g2, g3, g4⟩ := h.kept x hx e (h9 _ h3)
      refine ⟨w, (hput _).mpr ⟨fun hw => ?_, g1⟩, g2, g3, by omega⟩
      have : w = z' := hU.indexes _ _ (h.inX _ (h.sub _ (h.pres _ _ g1).2)) (h.inX _ h6) (Eq.trans hw hz.symm)
      subst this
      omega
  · exact ⟨z, (hput _).mpr ⟨hz, h1⟩, h2, h3, h4⟩

/-! ## Where each rebuild is -/

/-- What a rebuild has listed: indexes that were made before, and their packs are there. -/
def SeenBy (ids : Ids Id) (G : Index Id → Prop) (R : Repo Id) (I : List Id) : Prop :=
  ∀ i ∈ I, ∃ z, G z ∧ ids.indexId z = i ∧
    ∀ q mf, (q, mf) ∈ z.packs → ∃ bs, (q, bs) ∈ R.packs ∧ Pack.manifestOf bs = mf

/-- What it has gathered. -/
structure Collects (ids : Ids Id) (G : Index Id → Prop) (R : Repo Id) (I : List Id) (s : Rebuild.State Id)
    (x : Index Id) : Prop where
  sup : x.supersedes = I
  sorted : BMap.Sorted x.packs
  from_packs : ∀ e ∈ s.queue ++ x.packs, ∃ bs, (e.1, bs) ∈ R.packs ∧ e.2 = Pack.manifestOf bs
  cover : ∀ i ∈ I, ∃ z, G z ∧ ids.indexId z = i ∧
    (∀ q mf, (q, mf) ∈ z.packs → ∃ bs, (q, bs) ∈ R.packs ∧ Pack.manifestOf bs = mf) ∧
    ∀ q ∈ BMap.keys z.packs, q ∈ s.todo ∨ q ∈ s.queue.map Prod.fst ∨ q ∈ BMap.keys x.packs
  todo : ∀ q ∈ s.todo, q ∈ BMap.keys R.packs
  nodup : (s.todo ++ (s.queue.map Prod.fst ++ BMap.keys x.packs)).Nodup

/-- The index it made. -/
structure Made (G : Index Id → Prop) (R : Repo Id) (I : List Id) (x : Index Id) : Prop where
  made : G x
  sup : x.supersedes = I
  sorted : BMap.Sorted x.packs
  from_packs : ∀ q mf, (q, mf) ∈ x.packs → ∃ bs, (q, bs) ∈ R.packs ∧ Pack.manifestOf bs = mf

def At (ids : Ids Id) (G T : Index Id → Prop) (R : Repo Id) : Rebuilder Id → Prop
  | .no => True
  | .listed I _ => SeenBy ids G R I
  | .running I s left => (∀ o ∈ left, ∃ i ∈ I, o = .rmIndex i) ∧
    match s.phase with
    | .gather x => Collects ids G R I s x
    | .wrote x | .copied x => Made G R I x
    | .stored x | .uploaded x => T x ∧ Made G R I x
    | .dead => False

theorem At.mono (h : At ids G T R rb) (hG : ∀ x, G x → G' x) (hT : ∀ x, T x → T' x)
    (hp : ∀ e ∈ R.packs, e ∈ R'.packs) : At ids G' T' R' rb := by
  have there : ∀ {z : Index Id}, (∀ q mf, (q, mf) ∈ z.packs → ∃ bs, (q, bs) ∈ R.packs ∧ Pack.manifestOf bs = mf) →
      ∀ q mf, (q, mf) ∈ z.packs → ∃ bs, (q, bs) ∈ R'.packs ∧ Pack.manifestOf bs = mf :=
    fun h q mf hq => (h q mf hq).imp fun bs hb => ⟨hp _ hb.1, hb.2⟩
  have made : ∀ {I x}, Made G R I x → Made G' R' I x := fun h => ⟨hG _ h.made, h.sup, h.sorted, there h.from_packs⟩
  cases rb with
  | no => trivial
  | listed I c => exact fun i hi => (h i hi).imp fun z hz => ⟨hG _ hz.1, hz.2.1, there hz.2.2⟩
  | running I s left =>
    refine ⟨h.1, ?_⟩
    have h := h.2
    cases hph : s.phase with
    | gather x =>
      simp only [hph] at h ⊢
      exact ⟨h.sup, h.sorted, fun e he => (h.from_packs e he).imp fun bs hb => ⟨hp _ hb.1, hb.2⟩,
        fun i hi => (h.cover i hi).imp fun z hz => ⟨hG _ hz.1, hz.2.1, there hz.2.2.1, hz.2.2.2⟩,
        fun q hq => keys_mono hp (h.todo q hq), h.nodup⟩
    | wrote x => simp only [hph] at h ⊢; exact made h
    | copied x => simp only [hph] at h ⊢; exact made h
    | stored x => simp only [hph] at h ⊢; exact ⟨hT _ h.1, made h.2⟩
    | uploaded x => simp only [hph] at h ⊢; exact ⟨hT _ h.1, made h.2⟩
    | dead => simp only [hph] at h

omit [DecidableEq ι] in
/-- It lists the indexes. -/
theorem seen (hc : Core C ids U X S R0 J R alone) (h : Hist ids X R0 R G T rank N) :
    SeenBy ids G R (BMap.keys R.indexes) := by
  intro i hi
  obtain ⟨x, hx⟩ := BMap.mem_keys_iff.mp hi
  have hx := BMap.mem_of_get? hx
  obtain ⟨h1, h2⟩ := h.pres i x hx
  exact ⟨x, h.sub _ h2, h1.symm, (hc.lists i x hx).2⟩

/-- It lists the packs. -/
theorem SeenBy.collects (h : SeenBy ids G R I) (hs : BMap.Sorted R.packs) (w : World Id) :
    Collects ids G R I ⟨w, BMap.keys R.packs, [], .gather ⟨I, []⟩⟩ ⟨I, []⟩ := by
  refine ⟨rfl, BMap.sorted_nil, fun e he => (by cases he), ?_, fun q hq => hq, ?_⟩
  · intro i hi
    obtain ⟨z, h1, h2, h3⟩ := h i hi
    refine ⟨z, h1, h2, h3, fun q hq => ?_⟩
    obtain ⟨mf, h4⟩ := BMap.mem_keys_iff.mp hq
    obtain ⟨bs, h5, _⟩ := h3 q mf (BMap.mem_of_get? h4)
    exact .inl (BMap.mem_keys_of_mem h5)
  · show (BMap.keys R.packs ++ ([] ++ [])).Nodup
    rw [List.append_nil, List.append_nil]
    exact hs.nodup

/-- It has read every pack, and its index lists all that those it listed do. -/
theorem Collects.covers (hL : Ledger C (fun p bs => (p, bs) ∈ R.packs)) {s : Rebuild.State Id} {x : Index Id}
    (h : Collects ids G R I s x) (ht : s.todo = []) (hq : s.queue = []) :
    ∀ i ∈ x.supersedes, ∃ z, G z ∧ ids.indexId z = i ∧ ∀ e ∈ z.packs, e ∈ x.packs := by
  intro i hi
  rw [h.sup] at hi
  obtain ⟨z, h1, h2, h3, h4⟩ := h.cover i hi
  refine ⟨z, h1, h2, ?_⟩
  rintro ⟨q, mf⟩ he
  have := h4 q (BMap.mem_keys_of_mem he)
  rw [ht, hq] at this
  rcases this with h5 | h5 | h5
  · cases h5
  · cases h5
  · obtain ⟨mf', h6⟩ := BMap.mem_keys_iff.mp h5
    have h6 := BMap.mem_of_get? h6
    obtain ⟨bs, g1, g2⟩ := h.from_packs (q, mf') (List.mem_append_right _ h6)
    obtain ⟨bs', g3, g4⟩ := h3 q mf he
    have : bs' = bs := hL.one q bs' bs g3 g1
    subst this
    rw [← g4]
    exact g2 ▸ h6

/-! ## What is stored and removed -/

omit [DecidableEq ι] in
/-- An index is stored. -/
theorem core_put (hU : Apart ids U X S) (h : Core C ids U X S R0 J R alone) (hh : Hist ids X R0 R G T rank N)
    {x : Index Id} (hG : G x) (hs : ¬ Superseded R0.indexes (ids.indexId x)) (hsort : BMap.Sorted x.packs)
    (hthere : ∀ q mf, (q, mf) ∈ x.packs → ∃ bs, (q, bs) ∈ R.packs ∧ Pack.manifestOf bs = mf)
    {alone' : ι → Repo Id}
    (ha : ∀ k, (alone' k).packs = (alone k).packs ∧ (alone' k).snapshots = (alone k).snapshots)
    (hal : ∀ k j, J k = some j → ∀ q mf, Listed (alone' k).indexes q mf →
      Listed (alone k).indexes q mf ∨ (q, mf) ∈ x.packs) :
    Core C ids U X S R0 J (putItem R (.index (ids.indexId x) x)) alone' ∧
    Hist ids X R0 (putItem R (.index (ids.indexId x) x)) G (fun y => T y ∨ y = x) rank N := by
  have hX := hh.inX x hG
  have hput : ∀ e, e ∈ (putItem R (.index (ids.indexId x) x)).indexes ↔ e = (ids.indexId x, x) ∨ e ∈ R.indexes :=
    mem_put h.isort (fun v hv => hU.indexes _ _ (h.known.indexes _ _ hv).2 hX (h.known.indexes _ _ hv).1.symm)
  have hh' := hh.put hG hput hs
  have hm : ∀ q mf, Listed R.indexes q mf → Listed (putItem R (.index (ids.indexId x) x)).indexes q mf :=
    fun q mf => hh.mono hU hh' (fun _ h => .inl h)
  refine ⟨h.change rfl rfl ?_ (BMap.sorted_insert h.isort _ _) ?_ hm ha ?_, hh'⟩
  · intro a y hy
    rcases (hput _).mp hy with h1 | h1
    · cases h1; exact ⟨rfl, hX⟩
    · exact h.known.indexes _ _ h1
  · intro a y hy
    rcases (hput _).mp hy with h1 | h1
    · cases h1; exact ⟨hsort, hthere⟩
    · exact h.lists _ _ h1
  · intro k j hk q mf hl
    rcases hal k j hk q mf hl with h1 | h1
    · exact hm q mf (h.listed k j hk q mf h1)
    · exact hh'.listed hU (.inr rfl) h1

omit [DecidableEq ι] in
/-- An index is removed. -/
theorem core_remove (hU : Apart ids U X S) (h : Core C ids U X S R0 J R alone) (hh : Hist ids X R0 R G T rank N)
    {x : Index Id} (hx : T x) {l : Id} (hl : l ∈ x.supersedes) :
    Core C ids U X S R0 J (applyPost ids R (.rmIndex l)) alone ∧
    Hist ids X R0 (applyPost ids R (.rmIndex l)) G T rank N := by
  have hput : ∀ e, e ∈ (applyPost ids R (.rmIndex l)).indexes ↔ e.1 ≠ l ∧ e ∈ R.indexes := by
    rintro ⟨a, y⟩
    exact BMap.mem_erase_iff
  have hh' := hh.remove hU hx hl hput
  have hm : ∀ q mf, Listed R.indexes q mf → Listed (applyPost ids R (.rmIndex l)).indexes q mf :=
    fun q mf => hh.mono hU hh' (fun _ h => h)
  exact ⟨h.change rfl rfl (fun a y ha => h.known.indexes a y ((hput _).mp ha).2) (BMap.sorted_erase h.isort l)
    (fun a y ha => h.lists a y ((hput _).mp ha).2) hm (fun _ => ⟨rfl, rfl⟩)
    (fun k j hk q mf h1 => hm q mf (h.listed k j hk q mf h1)), hh'⟩

/-- A backup's index is stored. -/
theorem core_index (hU : Apart ids U X S) (h : Core C ids U X S R0 J R alone) (hh : Hist ids X R0 R G T rank N)
    {k : ι} {j : Job Id} (hk : J k = some j) (hA : Brings C ids cores U X S R0 j) {i : Id} {x : Index Id}
    {news : List (Id × Pack Id)} (hal : (alone k).indexes = j.w.repo.indexes) (hi : i = ids.indexId x)
    (hn : NewIndex (own ids cores j) j.w.repo (putItem (alone k) (.index i x)) (sends j.main) x news) :
    Core C ids U X S R0 J (putItem R (.index i x)) (Function.update alone k (putItem (alone k) (.index i x))) ∧
    ∃ G' T' rank' N', Hist ids X R0 (putItem R (.index i x)) G' T' rank' N' ∧ (∀ y, G y → G' y) ∧ ∀ y, T y → T' y := by
  subst hi
  have hX : X x := hA.indexes x hn.writes
  have hsup : x.supersedes = [] := hn.sup.trans hA.sup
  have hsafe := hA.safe x hn.writes
  obtain ⟨G', rank', N', h1, h2, h3⟩ := hh.know hX (by rw [hsup]; simp)
  obtain ⟨c1, c2⟩ := core_put hU h h1 h3 hsafe hn.sorted
    (fun q mf hq => by
      obtain ⟨bs, h2, h3⟩ := hn.there q mf hq
      exact ⟨bs, h.packs k j hk _ h2, h3⟩)
    (alone' := Function.update alone k (putItem (alone k) (.index (ids.indexId x) x)))
    (fun l => by
      by_cases hl : l = k
      · subst hl; rw [Function.update_self]; exact ⟨rfl, rfl⟩
      · rw [Function.update_of_ne hl]; exact ⟨rfl, rfl⟩)
    (fun l j' hl q mf hq => by
      by_cases hlk : l = k
      · subst hlk
        rw [Function.update_self] at hq
        have hmem : ∀ e, e ∈ (putItem (alone l) (.index (ids.indexId x) x)).indexes ↔
            e = (ids.indexId x, x) ∨ e ∈ (alone l).indexes := by
          refine mem_put (by rw [hal]; exact hA.run.world.isort) (fun v hv => ?_)
          have := (hA.idx x hn.writes).2.1 v
          rw [hal] at hv
          exact this hv
        obtain ⟨a, y, ⟨h1, h2⟩, h3⟩ := hq
        rcases (hmem _).mp h1 with h4 | h4
        · cases h4; exact .inr h3
        · refine .inl ⟨a, y, ⟨h4, ?_⟩, h3⟩
          rintro ⟨b, z, h5, h6⟩
          exact h2 ⟨b, z, (hmem _).mpr (.inr h5), h6⟩
      · rw [Function.update_of_ne hlk] at hq
        exact .inl hq)
  exact ⟨c1, G', _, rank', N', c2, h2, fun y hy => .inl hy⟩

/-! ## Runs of all of them -/

structure Inv (C : Codec Id) (ids : Ids Id) (cores : Nat) (U : Pack Id → Prop) (X : Index Id → Prop)
    (S : Snapshot Id → Prop) (R0 : Repo Id) (m : Many ι κ Id) (alone : ι → Repo Id) (G T : Index Id → Prop)
    (rank : Index Id → Nat) (N : Nat) : Prop where
  runs : ∀ k p, m.shared.proc k = some p → Runs C ids cores U X S R0 p (alone k)
  core : Core C ids U X S R0 (jobs m.shared) m.shared.repo alone
  hist : Hist ids X R0 m.shared.repo G T rank N
  phase : ∀ k, At ids G T m.shared.repo (m.rbs k)

/-- What is asked of the processes together: no two backups add the same new blob, and no index of a rebuild is
mistaken for another or one that was superseded at first. -/
structure Together (ids : Ids Id) (X : Index Id → Prop) (R0 : Repo Id) (m : Many ι κ Id) : Prop where
  apart : NewApart (jobs m.shared)
  index : ∀ k x, (m.rbs k).index = some x → X x ∧ ¬ Superseded R0.indexes (ids.indexId x)

variable {may : Job Id → Prop}

/-- The index of a rebuild does not change. -/
theorem index_step {R : Repo Id} {s t : Rebuild.State Id} {left : List (Post Id)} {x : Index Id}
    (hr : Rebuild.Step ids true (onRepo s R) t) :
    (Rebuilder.running I s left).index = some x → (Rebuilder.running I t left).index = some x := by
  cases hr with
  | read pre p post bs h1 h2 => exact id
  | recv p m q y h1 h2 h3 =>
    have h2 : s.phase = .gather y := h2
    simp [Rebuilder.index, h2]
  | recvDup p m q y h1 h2 h3 =>
    have h2 : s.phase = .gather y := h2
    simp [Rebuilder.index, h2]
  | write y h1 h2 h3 h4 =>
    have h3 : s.phase = .gather y := h3
    simp [Rebuilder.index, h3]
  | copy y h1 =>
    have h1 : s.phase = .wrote y := h1
    simp [Rebuilder.index, h1]
  | store y h1 h2 =>
    have h1 : s.phase = .copied y := h1
    simp [Rebuilder.index, h1]
  | drop y h1 =>
    have h1 : s.phase = .stored y := h1
    simp [Rebuilder.index, h1]
  | move y h1 h2 =>
    have h1 : s.phase = .copied y := h1
    simp [Rebuilder.index, h1]
  | discard y h1 h2 => cases h2

theorem Together.back {m m' : Many ι κ Id} (hs : Many.Step ids may m m') (h : Together ids X R0 m') :
    Together ids X R0 m := by
  have upd : ∀ {r : κ → Rebuilder Id} {k : κ} {b : Rebuilder Id}, (∀ x, (r k).index = some x → b.index = some x) →
      (∀ l x, (Function.update r k b l).index = some x → X x ∧ ¬ Superseded R0.indexes (ids.indexId x)) →
      ∀ l x, (r l).index = some x → X x ∧ ¬ Superseded R0.indexes (ids.indexId x) := by
    intro r k b h1 h2 l x hx
    by_cases hl : l = k
    · subst hl
      exact h2 l x (by rw [Function.update_self]; exact h1 x hx)
    · exact h2 l x (by rw [Function.update_of_ne hl]; exact hx)
  cases hs with
  | other m m' r hs =>
    refine ⟨?_, h.index⟩
    have job : ∀ k j, jobs m k = some j → jobs m' k = some j := by
      intro k j hk
      cases hs with
      | start i j' h1 h2 h3 =>
        rw [jobs_start]
        have : k ≠ i := by
          rintro rfl
          obtain ⟨p, hp, _⟩ := jobs_some hk
          rw [h1] at hp; cases hp
        rwa [Function.update_of_ne this]
      | run i p t h1 h2 h3 => rwa [jobs_same (p' := { p with s := t }) h1 rfl]
      | post i p o rest h1 h2 h3 => rwa [jobs_same (p' := { p with left := rest }) h1 rfl]
    exact fun i k j j' h1 h2 => h.apart i k j j' (job _ _ h1) (job _ _ h2)
  | indexes m r k cwd h1 => exact ⟨h.apart, upd (fun x hx => by dsimp only at hx; rw [h1] at hx; cases hx) h.index⟩
  | packs m r k I cwd h1 => exact ⟨h.apart, upd (fun x hx => by dsimp only at hx; rw [h1] at hx; cases hx) h.index⟩
  | post m r k I s x i rest h1 h2 h3 => exact ⟨h.apart, upd (fun x hx => by dsimp only at hx; rw [h1] at hx; exact hx) h.index⟩
  | run m r k I s t left h1 hr =>
    exact ⟨h.apart, upd (fun x hx => by dsimp only at hx; rw [h1] at hx; exact index_step hr hx) h.index⟩

/-- What comes of a step. -/
def Next (C : Codec Id) (ids : Ids Id) (cores : Nat) (U : Pack Id → Prop) (X : Index Id → Prop)
    (S : Snapshot Id → Prop) (R0 R : Repo Id) (m : Many ι κ Id) : Prop :=
  (∃ alone G T rank N, Inv C ids cores U X S R0 m alone G T rank N) ∧ ∀ e ∈ R.packs, e ∈ m.shared.repo.packs

/-- A step of another process. -/
theorem inv_other (hU : Apart ids U X S) (ht : Tidy R0)
    (hmay : ∀ j, may j → Healthy C ids j.w.repo → Known ids U X S j.w.repo → Brings C ids cores U X S R0 j)
    {m m' : Shared ι Id} {r : κ → Rebuilder Id} {alone : ι → Repo Id}
    (h : Inv C ids cores U X S R0 ⟨m, r⟩ alone G T rank N) (hd : NewApart (jobs m))
    (hs : Shared.Step may m m') : Next C ids cores U X S R0 m.repo (⟨m', r⟩ : Many ι κ Id) := by
  have hcore : Core C ids U X S R0 (jobs m) m.repo alone := h.core
  have hhist : Hist ids X R0 m.repo G T rank N := h.hist
  have hphase : ∀ k, At ids G T m.repo (r k) := h.phase
  have hruns : ∀ k p, m.proc k = some p → Runs C ids cores U X S R0 p (alone k) := h.runs
  have hbr : ∀ k j, jobs m k = some j → Brings C ids cores U X S R0 j := by
    intro k j hk
    obtain ⟨p, hp, rfl⟩ := jobs_some hk
    exact (hruns k p hp).brings
  have keep : ∀ {i : ι} {p p' : Proc Id} {A' R' : Repo Id} {G' T' : Index Id → Prop} {rank' N'}, m.proc i = some p →
      p'.job = p.job →
      Runs C ids cores U X S R0 p' A' → Core C ids U X S R0 (jobs m) R' (Function.update alone i A') →
      Hist ids X R0 R' G' T' rank' N' → (∀ y, G y → G' y) → (∀ y, T y → T' y) → (∀ e ∈ m.repo.packs, e ∈ R'.packs) →
      Next C ids cores U X S R0 m.repo (⟨⟨R', Function.update m.proc i (some p')⟩, r⟩ : Many ι κ Id) := by
    intro i p p' A' R' G' T' rank' N' hi hj hr hc hh hG hT hp
    refine ⟨⟨Function.update alone i A', G', T', rank', N', ?_, by rw [jobs_same hi hj]; exact hc, hh,
      fun k => (hphase k).mono hG hT hp⟩, hp⟩
    intro k q hk
    rcases C65.upd_some hk with ⟨rfl, rfl⟩ | ⟨hne, hk⟩
    · rw [Function.update_self]; exact hr
    · rw [Function.update_of_ne hne]; exact hruns k q hk
  cases hs with
  | start i j h1 h2 h3 =>
    have hB := hmay j h3 (by rw [h2]; exact hcore.healthy) (by rw [h2]; exact hcore.known)
    have hn : jobs m i = none := by unfold jobs; rw [h1]; rfl
    refine ⟨⟨Function.update alone i m.repo, G, T, rank, N, ?_, ?_, hhist, hphase⟩, fun e he => he⟩
    · intro k q hk
      rcases C65.upd_some hk with ⟨rfl, rfl⟩ | ⟨hne, hk⟩
      · rw [Function.update_self]
        refine ⟨hB, m.repo, [], rfl, ?_, by simp, rfl⟩
        have : (init j.c j.w j.main).on m.repo = init j.c j.w j.main := by rw [← h2]; rfl
        simp only [this]
        exact .refl
      · rw [Function.update_of_ne hne]
        exact hruns k q hk
    · rw [jobs_start]
      exact hcore.start hn ht.packs (fun x hx => by rw [← h2]; exact hB.new x hx)
  | run i p t h1 h2 h3 =>
    obtain ⟨o, f1, f2, f3⟩ := step_frame h3
    rw [on_repo] at f1
    have hR := hruns i p h1
    have hB := hR.brings
    obtain ⟨r', done, e1, e2, e3, e4⟩ := hR.run
    have hdone : done = [] := by
      by_contra hne
      rw [e3 hne] at h2
      cases h2
    subst hdone
    rw [List.foldl_nil] at e4
    have e2' : Reachable p.job.c p.job.w p.job.main (t.on (puts r' o)) := .tail e2 (f3 r')
    have hR' : Runs C ids cores U X S R0 { p with s := t } (puts r' o) :=
      ⟨hR.brings, puts r' o, [], e1, e2', by simp, rfl⟩
    have hs0 := hB.reach e2
    have hs1 := hB.reach e2'
    have hji := jobs_of h1
    rw [f1]
    cases o with
    | none =>
      refine keep h1 rfl hR' ?_ hhist (fun _ h => h) (fun _ h => h) (fun e he => he)
      have : Function.update alone i (puts r' none) = alone := by
        show Function.update alone i r' = alone
        rw [← e4, Function.update_eq_self]
      rw [this]
      exact hcore
    | some it =>
      obtain ⟨u1, u2, u3⟩ := f2 it rfl
      have heq : puts r' (some it) = putItem (alone i) it := by rw [e4]; rfl
      have heff := effect hB.run hs0
      rw [on_repo, ← e4] at heff
      cases it with
      | pack q bs =>
        have hin : (q, bs) ∈ (t.on (puts r' (some (.pack q bs)))).world.repo.packs :=
          (BMap.mem_insert_iff (by rw [← e4]; exact heff.psort)).mpr (.inl ⟨rfl, rfl⟩)
        obtain ⟨a1, a2⟩ := hB.named hs1 hin
        obtain ⟨news, g1, g2, g3⟩ := stored_packs hB.run hB.ledger hB.fresh hB.ups hs0
        have hold : ∀ e ∈ m.repo.packs, e ∈ (putItem m.repo (.pack q bs)).packs := fun e he =>
          (mem_put hcore.psort (fun v hv => hU.packs _ _ (hcore.known.packs _ _ hv).2 a2
            ((hcore.known.packs _ _ hv).1.symm.trans a1)) e).mpr (.inr he)
        refine keep h1 rfl hR' ?_ (hhist.same rfl) (fun _ h => h) (fun _ h => h) hold
        rw [heq]
        refine hcore.pack (cores := cores) hU hd hbr hji a1 a2 heff.psort heff.keep g1 g2 ?_
        rintro p' cs (h4 | h4)
        · refine g3 p' cs (.inl ?_)
          rw [on_repo, ← e4]; exact h4
        · cases h4
          exact g3 q bs (.inr u1)
      | index q x =>
        obtain ⟨b1, b2, news, b3⟩ := hB.stores hs0 hs1 (i := q) (x := x) u1 u2 u3
        rw [on_repo, heq] at b3
        have b1' : (alone i).indexes = p.job.w.repo.indexes := by rw [e4]; exact b1
        obtain ⟨c1, G', T', rank', N', c2, c3, c4⟩ := core_index hU hcore hhist hji hB b1' b2 b3
        refine keep h1 rfl hR' ?_ c2 c3 c4 (fun e he => he)
        rw [heq]
        exact c1
  | post i p o rest h1 h2 h3 =>
    have hR := hruns i p h1
    have hB := hR.brings
    obtain ⟨r', done, e1, e2, e3, e4⟩ := hR.run
    have hids : p.job.c.ids = ids := by rw [hB.live]; rfl
    have hmem : o ∈ p.job.posts := by rw [e1, h3]; simp
    have hR' : Runs C ids cores U X S R0 { p with left := rest } (applyPost ids (alone i) o) :=
      ⟨hR.brings, r', done ++ [o], by rw [e1, h3]; simp, e2, fun _ => h2,
        by rw [e4, List.foldl_append]; rfl⟩
    have hji := jobs_of h1
    rw [hids]
    obtain ⟨sn, rfl, hsn⟩ := hB.posts o hmem
    have hposts : ∀ l : List (Post Id), (∀ o ∈ l, ∃ sn, o = .putSnap sn) → ∀ r : Repo Id,
        (l.foldl (applyPost ids) r).packs = r.packs ∧ (l.foldl (applyPost ids) r).indexes = r.indexes := by
      intro l
      induction l with
      | nil => exact fun _ r => ⟨rfl, rfl⟩
      | cons a l ih =>
        intro hl r
        obtain ⟨sn, rfl⟩ := hl _ List.mem_cons_self
        exact ih (fun o ho => hl o (List.mem_cons_of_mem _ ho)) _
    obtain ⟨p1, p2⟩ := hposts done (fun o ho => by
      obtain ⟨sn, h4, _⟩ := hB.posts o (by rw [e1]; exact List.mem_append_left _ ho)
      exact ⟨sn, h4⟩) r'
    rw [← e4] at p1 p2
    have hread := hB.reads _ (hB.reach e2) h2 m.repo (fun b hb => has_mono
      (fun e he => hcore.packs i _ hji e (by rw [p1]; exact he))
      (fun q mf hl => hcore.listed i _ hji q mf (by rw [p2]; exact hl)) hb) sn hmem
    exact keep h1 rfl hR' (hcore.snap hU hsn hread) (hhist.same rfl) (fun _ h => h) (fun _ h => h) (fun e he => he)

/-- One of its threads reads a pack, or the indexer takes what was read. -/
theorem Collects.step {s t : Rebuild.State Id} {x : Index Id} (h : Collects ids G R I s x) (hp : s.phase = .gather x)
    (hr : Rebuild.Step ids true (onRepo s R) t) :
    (∃ y, t.phase = .gather y ∧ t.world.repo = R ∧ Collects ids G R I t y) ∨
    (t.phase = .wrote x ∧ t.world.repo = R ∧ s.todo = [] ∧ s.queue = []) := by
  have conv : ∀ {t : Rebuild.State Id} {y : Index Id}, (∀ q, (q ∈ s.todo ∨ q ∈ s.queue.map Prod.fst ∨ q ∈ BMap.keys x.packs) →
      q ∈ t.todo ∨ q ∈ t.queue.map Prod.fst ∨ q ∈ BMap.keys y.packs) → ∀ i ∈ I, ∃ z, G z ∧ ids.indexId z = i ∧
    (∀ q mf, (q, mf) ∈ z.packs → ∃ bs, (q, bs) ∈ R.packs ∧ Pack.manifestOf bs = mf) ∧
    ∀ q ∈ BMap.keys z.packs, q ∈ t.todo ∨ q ∈ t.queue.map Prod.fst ∨ q ∈ BMap.keys y.packs :=
    fun mv i hi => (h.cover i hi).imp fun z hz => ⟨hz.1, hz.2.1, hz.2.2.1, fun q hq => mv q (hz.2.2.2 q hq)⟩
  cases hr with
  | read pre p post bs h1 h2 =>
    have h1 : s.todo = pre ++ p :: post := h1
    have h2 : R.packs.get? p = some bs := h2
    refine .inl ⟨x, hp, rfl, h.sup, h.sorted, ?_, conv ?_, ?_, ?_⟩
    · intro e he
      rcases List.mem_append.mp he with h3 | h3
      · rcases List.mem_append.mp h3 with h3 | h3
        · exact h.from_packs e (List.mem_append_left _ h3)
        · rw [List.mem_singleton] at h3
          subst h3
          exact ⟨bs, BMap.mem_of_get? h2, rfl⟩
      · exact h.from_packs e (List.mem_append_right _ h3)
    · intro q hq
      rw [h1] at hq
      simp only [onRepo, List.mem_append, List.mem_cons, List.map_append, List.map_cons, List.map_nil] at hq ⊢
      rcases hq with (h3 | h3 | h3) | h3 | h3
      · exact .inl (.inl h3)
      · exact .inr (.inl (.inr (.inl h3)))
      · exact .inl (.inr h3)
      · exact .inr (.inl (.inl h3))
      · exact .inr (.inr h3)
    · intro q hq
      refine h.todo q ?_
      rw [h1]
      rcases List.mem_append.mp hq with h3 | h3
      · exact List.mem_append_left _ h3
      · exact List.mem_append_right _ (List.mem_cons_of_mem _ h3)
    · refine (List.Perm.nodup_iff ?_).mp h.nodup
      simp only [onRepo]
      rw [h1, List.map_append]
      simp only [List.append_assoc, List.map_cons, List.map_nil, List.cons_append, List.nil_append]
      refine List.Perm.append_left pre ?_
      refine List.Perm.trans List.perm_middle.symm ?_
      refine List.Perm.append_left post ?_
      exact List.perm_middle.symm
  | recv p mf q y h1 h2 h3 =>
    have h1 : s.queue = (p, mf) :: q := h1
    have h2 : s.phase = .gather y := h2
    rw [hp] at h2
    cases h2
    refine .inl ⟨_, rfl, rfl, h.sup, BMap.sorted_insert h.sorted _ _, ?_, conv ?_, h.todo, ?_⟩
    · rintro ⟨a, b⟩ he
      rcases List.mem_append.mp he with h4 | h4
      · exact h.from_packs _ (List.mem_append_left _ (by rw [h1]; exact List.mem_cons_of_mem _ h4))
      · rcases BMap.mem_insert_of h4 with ⟨rfl, rfl⟩ | h4
        · exact h.from_packs _ (List.mem_append_left _ (by rw [h1]; exact List.mem_cons_self))
        · exact h.from_packs _ (List.mem_append_right _ h4)
    · intro l hl
      rw [h1, List.map_cons, List.mem_cons] at hl
      rcases hl with h4 | (h4 | h4) | h4
      · exact .inl h4
      · exact .inr (.inr (BMap.keys_insert_mem.mpr (.inl h4)))
      · exact .inr (.inl h4)
      · exact .inr (.inr (BMap.keys_insert_mem.mpr (.inr h4)))
    · have hn := h.nodup
      rw [h1, List.map_cons] at hn
      have hperm : (BMap.keys (BMap.insert p mf x.packs)).Perm (p :: BMap.keys x.packs) := by
        refine (List.perm_ext_iff_of_nodup (BMap.sorted_insert h.sorted _ _).nodup
          (List.nodup_cons.mpr ⟨h3, h.sorted.nodup⟩)).mpr fun l => ?_
        rw [BMap.keys_insert_mem, List.mem_cons]
      refine (List.Perm.nodup_iff (List.Perm.append_left s.todo ?_)).mp hn
      exact List.perm_middle.symm.trans (List.Perm.append_left _ hperm.symm)
  | recvDup p mf q y h1 h2 h3 =>
    have h1 : s.queue = (p, mf) :: q := h1
    have h2 : s.phase = .gather y := h2
    rw [hp] at h2
    cases h2
    have hn := h.nodup
    rw [h1, List.nodup_append] at hn
    have hn := hn.2.1
    rw [List.nodup_append] at hn
    exact absurd rfl (hn.2.2 p List.mem_cons_self p h3)
  | write y h1 h2 h3 h4 =>
    have h3 : s.phase = .gather y := h3
    rw [hp] at h3
    cases h3
    exact .inr ⟨rfl, rfl, h1, h2⟩
  | copy y h1 => have h1 : s.phase = _ := h1; rw [hp] at h1; cases h1
  | store y h1 h2 => have h1 : s.phase = _ := h1; rw [hp] at h1; cases h1
  | drop y h1 => have h1 : s.phase = _ := h1; rw [hp] at h1; cases h1
  | move y h1 h2 => have h1 : s.phase = _ := h1; rw [hp] at h1; cases h1
  | discard y h1 h2 => cases h2

theorem inv_step (hU : Apart ids U X S) (ht : Tidy R0)
    (hmay : ∀ j, may j → Healthy C ids j.w.repo → Known ids U X S j.w.repo → Brings C ids cores U X S R0 j)
    {m m' : Many ι κ Id} {alone : ι → Repo Id} (h : Inv C ids cores U X S R0 m alone G T rank N)
    (hT : Together ids X R0 m') (hs : Many.Step ids may m m') :
    Next C ids cores U X S R0 m.shared.repo m' := by
  have hT0 := hT.back hs
  have keep : ∀ {m : Shared ι Id} {r : κ → Rebuilder Id} {R' : Repo Id} {b : Rebuilder Id} {k : κ}
      {G' T' : Index Id → Prop} {rank' N'},
      Inv C ids cores U X S R0 ⟨m, r⟩ alone G T rank N →
      Core C ids U X S R0 (jobs m) R' alone → Hist ids X R0 R' G' T' rank' N' → (∀ y, G y → G' y) → (∀ y, T y → T' y) →
      R'.packs = m.repo.packs → At ids G' T' R' b →
      Next C ids cores U X S R0 m.repo (⟨⟨R', m.proc⟩, Function.update r k b⟩ : Many ι κ Id) := by
    intro m r R' b k G' T' rank' N' h hc hh hG hT hp hb
    refine ⟨⟨alone, G', T', rank', N', h.runs, hc, hh, fun l => ?_⟩, by rw [hp]; exact fun e he => he⟩
    dsimp only
    by_cases hl : l = k
    · subst hl; rw [Function.update_self]; exact hb
    · rw [Function.update_of_ne hl]; exact (h.phase l).mono hG hT (by rw [hp]; exact fun e he => he)
  cases hs with
  | other m m' r hs => exact inv_other hU ht hmay h hT0.apart hs
  | indexes m r k cwd h1 =>
    exact keep (R' := m.repo) h h.core h.hist (fun _ h => h) (fun _ h => h) rfl (seen h.core h.hist)
  | packs m r k I cwd h1 =>
    have hp : At ids G T m.repo (r k) := h.phase k
    rw [h1] at hp
    have hp : SeenBy ids G m.repo I := hp
    refine keep (R' := m.repo) h h.core h.hist (fun _ h => h) (fun _ h => h) rfl ⟨?_, hp.collects h.core.psort _⟩
    intro o ho
    obtain ⟨i, hi, rfl⟩ := List.mem_map.mp ho
    exact ⟨i, hi, rfl⟩
  | post m r k I s x i rest h1 h2 h3 =>
    have hp : At ids G T m.repo (r k) := h.phase k
    rw [h1] at hp
    obtain ⟨g1, g2⟩ := hp
    simp only [h2] at g2
    obtain ⟨l, hl, he⟩ := g1 _ List.mem_cons_self
    cases he
    obtain ⟨c1, c2⟩ := core_remove hU h.core h.hist g2.1 (l := i) (by rw [g2.2.sup]; exact hl)
    refine keep h c1 c2 (fun _ h => h) (fun _ h => h) rfl ⟨fun o ho => g1 o (List.mem_cons_of_mem _ ho), ?_⟩
    simp only [h2]
    exact ⟨g2.1, g2.2.made, g2.2.sup, g2.2.sorted, g2.2.from_packs⟩
  | run m r k I s t left h1 hr =>
    have hp : At ids G T m.repo (r k) := h.phase k
    rw [h1] at hp
    obtain ⟨hl, hph⟩ := hp
    have hix : ∀ x, (Rebuilder.running I t left).index = some x → X x ∧ ¬ Superseded R0.indexes (ids.indexId x) := by
      intro x hx
      exact hT.index k x (by dsimp only; rw [Function.update_self]; exact hx)
    have sto : ∀ {x : Index Id} {t : Rebuild.State Id}, X x ∧ ¬ Superseded R0.indexes (ids.indexId x) →
        Made G m.repo I x → (t.phase = .stored x ∨ t.phase = .uploaded x) →
        t.world.repo = putItem m.repo (.index (ids.indexId x) x) →
        Next C ids cores U X S R0 m.repo
          (⟨⟨t.world.repo, m.proc⟩, Function.update r k (.running I t left)⟩ : Many ι κ Id) := by
      intro x t hx hM hph hR
      obtain ⟨c1, c2⟩ := core_put hU h.core h.hist hM.made hx.2 hM.sorted hM.from_packs (alone' := alone)
        (fun _ => ⟨rfl, rfl⟩) (fun _ _ _ _ _ hl => .inl hl)
      rw [hR]
      refine keep h c1 c2 (fun _ h => h) (fun _ h => .inl h) rfl ⟨hl, ?_⟩
      have hM' : Made G (putItem m.repo (.index (ids.indexId x) x)) I x :=
        ⟨hM.made, hM.sup, hM.sorted, hM.from_packs⟩
      rcases hph with hph | hph
      · simp only [hph]; exact ⟨.inr trivial, hM'⟩
      · simp only [hph]; exact ⟨.inr trivial, hM'⟩
    cases hp : s.phase with
    | gather x =>
      simp only [hp] at hph
      rcases hph.step hp hr with ⟨y, g1, g2, g3⟩ | ⟨g1, g2, g3, g4⟩
      · rw [g2]
        refine keep (R' := m.repo) h h.core h.hist (fun _ h => h) (fun _ h => h) rfl ⟨hl, ?_⟩
        simp only [g1]
        exact g3
      · obtain ⟨G', rank', N', e1, e2, e3⟩ := h.hist.know (hix x (by simp [Rebuilder.index, g1])).1
          (hph.covers h.core.ledger g3 g4)
        rw [g2]
        refine keep (R' := m.repo) h h.core e1 e2 (fun _ h => h) rfl ⟨hl, ?_⟩
        simp only [g1]
        exact ⟨e3, hph.sup, hph.sorted, fun q mf he => (hph.from_packs (q, mf) (List.mem_append_right _ he)).imp
          fun bs hb => ⟨hb.1, hb.2.symm⟩⟩
    | dead => simp only [hp] at hph
    | wrote x =>
      simp only [hp] at hph
      cases hr with
      | read pre p post bs h1 h2 =>
        refine keep (R' := m.repo) h h.core h.hist (fun _ h => h) (fun _ h => h) rfl ⟨hl, ?_⟩
        simp only [onRepo, hp]; exact hph
      | copy y g1 =>
        have g1 : s.phase = .wrote y := g1
        rw [hp] at g1
        cases g1
        exact keep (R' := m.repo) h h.core h.hist (fun _ h => h) (fun _ h => h) rfl ⟨hl, hph⟩
      | recv p mf q y g1 g2 g3 => have g2 : s.phase = _ := g2; rw [hp] at g2; cases g2
      | recvDup p mf q y g1 g2 g3 => have g2 : s.phase = _ := g2; rw [hp] at g2; cases g2
      | write y g1 g2 g3 g4 => have g3 : s.phase = _ := g3; rw [hp] at g3; cases g3
      | store y g1 g2 => have g1 : s.phase = _ := g1; rw [hp] at g1; cases g1
      | drop y g1 => have g1 : s.phase = _ := g1; rw [hp] at g1; cases g1
      | move y g1 g2 => have g1 : s.phase = _ := g1; rw [hp] at g1; cases g1
      | discard y g1 g2 => cases g2
    | copied x =>
      simp only [hp] at hph
      cases hr with
      | read pre p post bs h1 h2 =>
        refine keep (R' := m.repo) h h.core h.hist (fun _ h => h) (fun _ h => h) rfl ⟨hl, ?_⟩
        simp only [onRepo, hp]; exact hph
      | copy y g1 => have g1 : s.phase = _ := g1; rw [hp] at g1; cases g1
      | recv p mf q y g1 g2 g3 => have g2 : s.phase = _ := g2; rw [hp] at g2; cases g2
      | recvDup p mf q y g1 g2 g3 => have g2 : s.phase = _ := g2; rw [hp] at g2; cases g2
      | write y g1 g2 g3 g4 => have g3 : s.phase = _ := g3; rw [hp] at g3; cases g3
      | store y g1 g2 =>
        have g1 : s.phase = .copied y := g1
        rw [hp] at g1
        cases g1
        exact sto (hix x rfl) hph (.inl rfl) rfl
      | drop y g1 => have g1 : s.phase = _ := g1; rw [hp] at g1; cases g1
      | move y g1 g2 =>
        have g1 : s.phase = .copied y := g1
        rw [hp] at g1
        cases g1
        exact sto (hix x rfl) hph (.inr rfl) rfl
      | discard y g1 g2 => cases g2
    | stored x =>
      simp only [hp] at hph
      cases hr with
      | read pre p post bs h1 h2 =>
        refine keep (R' := m.repo) h h.core h.hist (fun _ h => h) (fun _ h => h) rfl ⟨hl, ?_⟩
        simp only [onRepo, hp]; exact hph
      | copy y g1 => have g1 : s.phase = _ := g1; rw [hp] at g1; cases g1
      | recv p mf q y g1 g2 g3 => have g2 : s.phase = _ := g2; rw [hp] at g2; cases g2
      | recvDup p mf q y g1 g2 g3 => have g2 : s.phase = _ := g2; rw [hp] at g2; cases g2
      | write y g1 g2 g3 g4 => have g3 : s.phase = _ := g3; rw [hp] at g3; cases g3
      | store y g1 g2 => have g1 : s.phase = _ := g1; rw [hp] at g1; cases g1
      | drop y g1 =>
        have g1 : s.phase = .stored y := g1
        rw [hp] at g1
        cases g1
        exact keep (R' := m.repo) h h.core h.hist (fun _ h => h) (fun _ h => h) rfl ⟨hl, hph⟩
      | move y g1 g2 => have g1 : s.phase = _ := g1; rw [hp] at g1; cases g1
      | discard y g1 g2 => cases g2
    | uploaded x =>
      simp only [hp] at hph
      cases hr with
      | read pre p post bs h1 h2 =>
        refine keep (R' := m.repo) h h.core h.hist (fun _ h => h) (fun _ h => h) rfl ⟨hl, ?_⟩
        simp only [onRepo, hp]; exact hph
      | copy y g1 => have g1 : s.phase = _ := g1; rw [hp] at g1; cases g1
      | recv p mf q y g1 g2 g3 => have g2 : s.phase = _ := g2; rw [hp] at g2; cases g2
      | recvDup p mf q y g1 g2 g3 => have g2 : s.phase = _ := g2; rw [hp] at g2; cases g2
      | write y g1 g2 g3 g4 => have g3 : s.phase = _ := g3; rw [hp] at g3; cases g3
      | store y g1 g2 => have g1 : s.phase = _ := g1; rw [hp] at g1; cases g1
      | drop y g1 => have g1 : s.phase = _ := g1; rw [hp] at g1; cases g1
      | move y g1 g2 => have g1 : s.phase = _ := g1; rw [hp] at g1; cases g1
      | discard y g1 g2 => cases g2

theorem inv (hU : Apart ids U X S) (hH : Healthy C ids R0) (hK : Known ids U X S R0) (ht : Tidy R0)
    (hmay : ∀ j, may j → Healthy C ids j.w.repo → Known ids U X S j.w.repo → Brings C ids cores U X S R0 j)
    {m : Many ι κ Id} (h : Many.Reachable ids may R0 m) (hT : Together ids X R0 m) :
    ∃ alone G T rank N, Inv C ids cores U X S R0 m alone G T rank N := by
  induction h with
  | refl =>
    refine ⟨fun _ => R0, fun x => ∃ i, (i, x) ∈ R0.indexes, fun x => ∃ i, (i, x) ∈ R0.indexes, fun _ => 0, 1, by simp,
      ?_, ?_, fun _ => trivial⟩
    · refine ⟨hK, hH.packs_sorted, hH.indexes_sorted, hH.snapshots_sorted, ?_, ?_, fun e he => he, fun e he => he,
        fun k j hk => (by cases hk), fun k j hk => (by cases hk), fun q bs hq => .inl hq, fun k j hk => (by cases hk),
        fun q mf hl => hl, fun k j hk => (by cases hk), hH.readable⟩
      · exact hH.sound.ledger.mono (fun p bs hp => ⟨ht.packs p bs hp, hp⟩)
      · exact fun i x hx => ⟨hH.index_packs i x hx, fun q mf hq => hH.present q mf (ht.indexes i x hx q mf hq)⟩
    · refine ⟨fun x ⟨i, hx⟩ => (hK.indexes i x hx).2, fun _ _ => Nat.one_pos, fun _ h => h,
        fun i x hx => ⟨(hK.indexes i x hx).1, i, hx⟩, fun i x hx => ⟨i, hx⟩, fun i x hx => .inl hx, fun x hx => .inl hx, ?_⟩
      rintro y ⟨i, hy⟩ ⟨q, mf⟩ he
      obtain ⟨k, z, ⟨h1, h2⟩, h3⟩ := ht.indexes i y hy q mf he
      obtain ⟨rfl, _⟩ := hK.indexes k z h1
      exact ⟨z, h1, h2, h3, Nat.le_refl _⟩
  | tail _ hs ih =>
    obtain ⟨alone, G, T, rank, N, hi⟩ := ih (hT.back hs)
    exact (inv_step hU ht hmay hi hT hs).1

/-- On the way, what is asked of the processes together was so, and packs are only added. -/
theorem path (hU : Apart ids U X S) (hH : Healthy C ids R0) (hK : Known ids U X S R0) (ht : Tidy R0)
    (hmay : ∀ j, may j → Healthy C ids j.w.repo → Known ids U X S j.w.repo → Brings C ids cores U X S R0 j)
    {m m' : Many ι κ Id} (h : Many.Reachable ids may R0 m) (h' : Relation.ReflTransGen (Many.Step ids may) m m')
    (hT : Together ids X R0 m') :
    Together ids X R0 m ∧ ∀ e ∈ m.shared.repo.packs, e ∈ m'.shared.repo.packs := by
  induction h' with
  | refl => exact ⟨hT, fun e he => he⟩
  | @tail a b h1 hs ih =>
    have hTa := hT.back hs
    obtain ⟨g1, g2⟩ := ih hTa
    obtain ⟨alone, G, T, rank, N, hi⟩ := inv hU hH hK ht hmay (h.trans h1) hTa
    exact ⟨g1, fun e he => (inv_step hU ht hmay hi hT hs).2 e (g2 e he)⟩

/-! ## What a rebuild finds -/

/-- These packs are on its list, or were, or will be. -/
def Finds (P : Id → Prop) : Rebuilder Id → Prop
  | .no => True
  | .listed _ _ => True
  | .running _ s _ => match s.phase with
    | .gather x => ∀ q, P q → q ∈ s.todo ∨ q ∈ s.queue.map Prod.fst ∨ q ∈ BMap.keys x.packs
    | .wrote x | .copied x | .stored x | .uploaded x => ∀ q, P q → q ∈ BMap.keys x.packs
    | .dead => True

theorem Finds.run {P : Id → Prop} {s t : Rebuild.State Id} {left left' : List (Post Id)} {R : Repo Id}
    (h : Finds P (.running I s left)) (hr : Rebuild.Step ids true (onRepo s R) t) :
    Finds P (.running I t left') := by
  have h : match s.phase with
    | .gather x => ∀ q, P q → q ∈ s.todo ∨ q ∈ s.queue.map Prod.fst ∨ q ∈ BMap.keys x.packs
    | .wrote x | .copied x | .stored x | .uploaded x => ∀ q, P q → q ∈ BMap.keys x.packs
    | .dead => True := h
  cases hr with
  | read pre p post bs h1 h2 =>
    have h1 : s.todo = pre ++ p :: post := h1
    unfold Finds
    simp only [onRepo]
    cases hp : s.phase with
    | gather x =>
      simp only [hp] at h ⊢
      intro q hq
      have hq := h q hq
      rw [h1] at hq
      simp only [List.mem_append, List.mem_cons, List.map_append, List.map_cons, List.map_nil] at hq ⊢
      rcases hq with (h3 | h3 | h3) | h3 | h3
      · exact .inl (.inl h3)
      · exact .inr (.inl (.inr (.inl h3)))
      · exact .inl (.inr h3)
      · exact .inr (.inl (.inl h3))
      · exact .inr (.inr h3)
    | wrote x => simp only [hp] at h ⊢; exact h
    | copied x => simp only [hp] at h ⊢; exact h
    | stored x => simp only [hp] at h ⊢; exact h
    | uploaded x => simp only [hp] at h ⊢; exact h
    | dead => trivial
  | recv p mf q y h1 h2 h3 =>
    have h1 : s.queue = (p, mf) :: q := h1
    have h2 : s.phase = .gather y := h2
    simp only [h2] at h
    intro l hl
    have hl := h l hl
    rw [h1, List.map_cons, List.mem_cons] at hl
    rcases hl with h4 | (h4 | h4) | h4
    · exact .inl h4
    · exact .inr (.inr (BMap.keys_insert_mem.mpr (.inl h4)))
    · exact .inr (.inl h4)
    · exact .inr (.inr (BMap.keys_insert_mem.mpr (.inr h4)))
  | recvDup p mf q y h1 h2 h3 => trivial
  | write y h1 h2 h3 h4 =>
    have h1 : s.todo = [] := h1
    have h2 : s.queue = [] := h2
    have h3 : s.phase = .gather y := h3
    simp only [h3] at h
    intro l hl
    have hl := h l hl
    rw [h1, h2] at hl
    rcases hl with h4 | h4 | h4
    · cases h4
    · cases h4
    · exact h4
  | copy y h1 => have h1 : s.phase = _ := h1; simp only [h1] at h; exact h
  | store y h1 h2 => have h1 : s.phase = _ := h1; simp only [h1] at h; exact h
  | drop y h1 => have h1 : s.phase = _ := h1; simp only [h1] at h; exact h
  | move y h1 h2 => have h1 : s.phase = _ := h1; simp only [h1] at h; exact h
  | discard y h1 h2 => cases h2

/-- The packs there are at some instant are found by every rebuild that lists the packs later. -/
theorem finds (hU : Apart ids U X S) (hH : Healthy C ids R0) (hK : Known ids U X S R0) (ht : Tidy R0)
    (hmay : ∀ j, may j → Healthy C ids j.w.repo → Known ids U X S j.w.repo → Brings C ids cores U X S R0 j)
    {m m' : Many ι κ Id} (h : Many.Reachable ids may R0 m) (h' : Relation.ReflTransGen (Many.Step ids may) m m')
    (hT : Together ids X R0 m') {k : κ} (hk : Finds (· ∈ BMap.keys m.shared.repo.packs) (m.rbs k)) :
    Finds (· ∈ BMap.keys m.shared.repo.packs) (m'.rbs k) := by
  induction h' with
  | refl => exact hk
  | @tail a b h1 hs ih =>
    have hTa := hT.back hs
    have hp := (path hU hH hK ht hmay h h1 hTa).2
    have ih := ih hTa
    have upd : ∀ {r : κ → Rebuilder Id} {l : κ} {b : Rebuilder Id}, Finds (· ∈ BMap.keys m.shared.repo.packs) (r k) →
        (l = k → Finds (· ∈ BMap.keys m.shared.repo.packs) b) →
        Finds (· ∈ BMap.keys m.shared.repo.packs) (Function.update r l b k) := by
      intro r l b h2 h3
      by_cases hl : k = l
      · subst hl; rw [Function.update_self]; exact h3 rfl
      · rw [Function.update_of_ne hl]; exact h2
    cases hs with
    | other m m' r hs => exact ih
    | indexes m r l cwd h2 => exact upd ih fun _ => trivial
    | packs m r l I cwd h2 => exact upd ih fun _ q hq => .inl (keys_mono hp hq)
    | post m r l I s x i rest h2 h3 h4 =>
      refine upd ih ?_
      rintro rfl
      have ih : Finds _ (r l) := ih
      rw [h2] at ih
      exact ih
    | run m r l I s t left h2 hr =>
      refine upd ih ?_
      rintro rfl
      have ih : Finds _ (r l) := ih
      rw [h2] at ih
      exact ih.run hr

/-! ## A rebuild comes to its end, or fails -/

theorem lift_rebuild {m : Shared ι Id} {r : κ → Rebuilder Id} {k : κ} {left : List (Post Id)}
    {s t : Rebuild.State Id} (hk : r k = .running I s left)
    (h : Relation.ReflTransGen (Rebuild.Step ids true) (onRepo s m.repo) t) :
    ∃ u : Rebuild.State Id, u.phase = t.phase ∧ Relation.ReflTransGen (Many.Step ids may) (⟨m, r⟩ : Many ι κ Id)
      ⟨⟨t.world.repo, m.proc⟩, Function.update r k (.running I u left)⟩ := by
  have go : ∀ {a : Rebuild.State Id}, Relation.ReflTransGen (Rebuild.Step ids true) a t →
      Relation.ReflTransGen (Many.Step ids may)
        (⟨⟨a.world.repo, m.proc⟩, Function.update r k (.running I a left)⟩ : Many ι κ Id)
        ⟨⟨t.world.repo, m.proc⟩, Function.update r k (.running I t left)⟩ := by
    intro a h
    induction h using Relation.ReflTransGen.head_induction_on with
    | refl => exact .refl
    | @head a b hs _ ih =>
      refine .head ?_ ih
      have := Many.Step.run (may := may) (ids := ids) (⟨a.world.repo, m.proc⟩ : Shared ι Id)
        (Function.update r k (.running I a left)) k I a b left (Function.update_self ..) hs
      rwa [Function.update_idem] at this
  rcases Relation.ReflTransGen.cases_head h with h1 | ⟨u, h1, h2⟩
  · subst h1
    refine ⟨s, rfl, ?_⟩
    rw [← hk, Function.update_eq_self]
    exact .refl
  · exact ⟨t, rfl, .head (Many.Step.run m r k I s u left hk h1) (go h2)⟩

/-- A rebuild whose index is stored removes those it listed, up to one that is gone. -/
theorem lift_removals {m : Shared ι Id} {k : κ} {s : Rebuild.State Id} {x : Index Id}
    (hs : s.phase = .uploaded x) (left : List (Post Id)) : ∀ (R : Repo Id) (r : κ → Rebuilder Id),
    r k = .running I s left → (∀ o ∈ left, ∃ i ∈ I, o = .rmIndex i) →
    ∃ R' rb', Relation.ReflTransGen (Many.Step ids may) (⟨⟨R, m.proc⟩, r⟩ : Many ι κ Id)
      ⟨⟨R', m.proc⟩, Function.update r k rb'⟩ ∧ (rb'.finished x ∨ rb'.failed R') := by
  induction left with
  | nil =>
    intro R r hk _
    refine ⟨R, .running I s [], ?_, .inl ⟨hs, rfl⟩⟩
    rw [← hk, Function.update_eq_self]
  | cons o rest ih =>
    intro R r hk hl
    obtain ⟨i, _, rfl⟩ := hl _ List.mem_cons_self
    by_cases hi : i ∈ BMap.keys R.indexes
    · obtain ⟨R', rb', h1, h2⟩ := ih (applyPost ids R (.rmIndex i)) (Function.update r k (.running I s rest))
        (Function.update_self ..) (fun o ho => hl o (List.mem_cons_of_mem _ ho))
      rw [Function.update_idem] at h1
      exact ⟨R', rb', .head (Many.Step.post ⟨R, m.proc⟩ r k I s x i rest hk hs hi) h1, h2⟩
    · refine ⟨R, .running I s (.rmIndex i :: rest), ?_, .inr ⟨⟨x, hs⟩, hi⟩⟩
      rw [← hk, Function.update_eq_self]

/-- At every instant each rebuild can go on until it has removed all it listed, or one of them is gone. -/
theorem Inv.completes {m : Many ι κ Id} {alone : ι → Repo Id} (h : Inv C ids cores U X S R0 m alone G T rank N) {k : κ}
    {q0 : Id} (hq0 : q0 ∈ BMap.keys R0.packs) (hf : Finds (· ∈ BMap.keys R0.packs) (m.rbs k)) :
    ∃ R' rb' x, Relation.ReflTransGen (Many.Step ids may) m ⟨⟨R', m.shared.proc⟩, Function.update m.rbs k rb'⟩ ∧
      (rb'.finished x ∨ rb'.failed R') := by
  obtain ⟨m, r⟩ := m
  have idem : ∀ {a : Many ι κ Id} {r : κ → Rebuilder Id} {b : Rebuilder Id} {f : ι → Option (Proc Id)},
      (∃ R' rb' x, Relation.ReflTransGen (Many.Step ids may) a ⟨⟨R', f⟩, Function.update (Function.update r k b) k rb'⟩ ∧
        (rb'.finished x ∨ rb'.failed R')) →
      ∃ R' rb' x, Relation.ReflTransGen (Many.Step ids may) a ⟨⟨R', f⟩, Function.update r k rb'⟩ ∧
        (rb'.finished x ∨ rb'.failed R') := by
    rintro a r b f ⟨R', rb', x, h1, h2⟩
    rw [Function.update_idem] at h1
    exact ⟨R', rb', x, h1, h2⟩
  have next : ∀ {a b c : Many ι κ Id}, Relation.ReflTransGen (Many.Step ids may) a b →
      Relation.ReflTransGen (Many.Step ids may) b c → Relation.ReflTransGen (Many.Step ids may) a c := .trans
  have up : ∀ (R : Repo Id) (f : ι → Option (Proc Id)) (r : κ → Rebuilder Id) I s left x, r k = .running I s left →
      (∀ o ∈ left, ∃ i ∈ I, o = Post.rmIndex i) → s.phase = .uploaded x →
      ∃ R' rb' y, Relation.ReflTransGen (Many.Step ids may) (⟨⟨R, f⟩, r⟩ : Many ι κ Id)
        ⟨⟨R', f⟩, Function.update r k rb'⟩ ∧ (rb'.finished y ∨ rb'.failed R') := by
    intro R f r I s left x hk hl hs
    obtain ⟨R', rb', h1, h2⟩ := lift_removals (may := may) (ids := ids) (m := ⟨R, f⟩) hs left R r hk hl
    exact ⟨R', rb', x, h1, h2⟩
  have one : ∀ (m : Shared ι Id) (r : κ → Rebuilder Id) I s t left, r k = .running I s left →
      Rebuild.Step ids true (onRepo s m.repo) t →
      (∃ R' rb' y, Relation.ReflTransGen (Many.Step ids may)
        (⟨⟨t.world.repo, m.proc⟩, Function.update r k (.running I t left)⟩ : Many ι κ Id)
        ⟨⟨R', m.proc⟩, Function.update (Function.update r k (.running I t left)) k rb'⟩ ∧
        (rb'.finished y ∨ rb'.failed R')) →
      ∃ R' rb' y, Relation.ReflTransGen (Many.Step ids may) (⟨m, r⟩ : Many ι κ Id)
        ⟨⟨R', m.proc⟩, Function.update r k rb'⟩ ∧ (rb'.finished y ∨ rb'.failed R') := by
    intro m r I s t left hk hs h
    obtain ⟨R', rb', y, h1, h2⟩ := idem h
    exact ⟨R', rb', y, .head (Many.Step.run m r k I s t left hk hs) h1, h2⟩
  have cp : ∀ (m : Shared ι Id) (r : κ → Rebuilder Id) I s left x, r k = .running I s left →
      (∀ o ∈ left, ∃ i ∈ I, o = Post.rmIndex i) → s.phase = .copied x →
      ∃ R' rb' y, Relation.ReflTransGen (Many.Step ids may) (⟨m, r⟩ : Many ι κ Id)
        ⟨⟨R', m.proc⟩, Function.update r k rb'⟩ ∧ (rb'.finished y ∨ rb'.failed R') := by
    intro m r I s left x hk hl hs
    exact one m r I s _ left hk (.move (onRepo s m.repo) x hs rfl)
      (up _ _ _ I _ left x (Function.update_self ..) hl rfl)
  have gt : ∀ (m : Shared ι Id) (r : κ → Rebuilder Id) I s left x, r k = .running I s left →
      (∀ o ∈ left, ∃ i ∈ I, o = Post.rmIndex i) → s.phase = .gather x → Collects ids G m.repo I s x →
      (q0 ∈ s.todo ∨ q0 ∈ s.queue.map Prod.fst ∨ q0 ∈ BMap.keys x.packs) →
      ∃ R' rb' y, Relation.ReflTransGen (Many.Step ids may) (⟨m, r⟩ : Many ι κ Id)
        ⟨⟨R', m.proc⟩, Function.update r k rb'⟩ ∧ (rb'.finished y ∨ rb'.failed R') := by
    intro m r I s left x hk hl hs hG hq
    have hne' : x.supersedes ≠ [] ∨ s.todo ≠ [] ∨ s.queue ≠ [] ∨ x.packs ≠ [] := by
      rcases hq with h2 | h2 | h2
      · exact .inr (.inl (List.ne_nil_of_mem h2))
      · obtain ⟨e', h3, _⟩ := List.mem_map.mp h2
        exact .inr (.inr (.inl (List.ne_nil_of_mem h3)))
      · obtain ⟨e', h3, _⟩ := List.mem_map.mp h2
        exact .inr (.inr (.inr (List.ne_nil_of_mem h3)))
    obtain ⟨t, y, h1, h2, _⟩ := gather_run (ids := ids) (R := m.repo) _ (onRepo s m.repo) x rfl hs rfl hG.sorted
      hG.todo hG.nodup hne'
    obtain ⟨u, hu, h3⟩ := lift_rebuild (may := may) hk h1
    obtain ⟨R', rb', z, h4, h5⟩ := idem (cp ⟨t.world.repo, m.proc⟩ _ I u left y (Function.update_self ..) hl (hu.trans h2))
    exact ⟨R', rb', z, h3.trans h4, h5⟩
  have rms : ∀ I : List Id, ∀ o ∈ I.map Post.rmIndex, ∃ i ∈ I, o = Post.rmIndex i := by
    intro I o ho
    obtain ⟨i, hi, rfl⟩ := List.mem_map.mp ho
    exact ⟨i, hi, rfl⟩
  have hq1 : q0 ∈ BMap.keys m.repo.packs := keys_mono h.core.base hq0
  have ls : ∀ (r : κ → Rebuilder Id) I c, r k = .listed I c → SeenBy ids G m.repo I →
      ∃ R' rb' y, Relation.ReflTransGen (Many.Step ids may) (⟨m, r⟩ : Many ι κ Id)
        ⟨⟨R', m.proc⟩, Function.update r k rb'⟩ ∧ (rb'.finished y ∨ rb'.failed R') := by
    intro r I c hk hS
    obtain ⟨R', rb', y, h1, h2⟩ := idem (gt m _ I _ _ _ (Function.update_self ..) (rms I) rfl
      (hS.collects h.core.psort ⟨m.repo, c⟩) (.inl hq1))
    exact ⟨R', rb', y, .head (Many.Step.packs m r k I c hk) h1, h2⟩
  have hf : Finds (· ∈ BMap.keys R0.packs) (r k) := hf
  have hph : At ids G T m.repo (r k) := h.phase k
  cases hk : r k with
  | no =>
    obtain ⟨R', rb', y, h1, h2⟩ := idem (ls _ _ ⟨none, [], []⟩ (Function.update_self ..) (seen h.core h.hist))
    exact ⟨R', rb', y, .head (Many.Step.indexes m r k ⟨none, [], []⟩ hk) h1, h2⟩
  | listed I c =>
    rw [hk] at hph
    exact ls r I c hk hph
  | running I s left =>
    rw [hk] at hph hf
    obtain ⟨hl, hph⟩ := hph
    cases hp : s.phase with
    | gather x =>
      simp only [hp] at hph
      unfold Finds at hf
      simp only [hp] at hf
      exact gt m r I s left x hk hl hp hph (hf q0 hq0)
    | wrote x =>
      exact one m r I s _ left hk (.copy (onRepo s m.repo) x hp)
        (cp ⟨m.repo, m.proc⟩ _ I _ left x (Function.update_self ..) hl rfl)
    | copied x => exact cp m r I s left x hk hl hp
    | stored x =>
      exact one m r I s _ left hk (.drop (onRepo s m.repo) x hp)
        (up m.repo m.proc _ I _ left x (Function.update_self ..) hl rfl)
    | uploaded x => exact up m.repo m.proc r I s left x hk hl hp
    | dead => simp only [hp] at hph

end Backpak.Rebuilds
