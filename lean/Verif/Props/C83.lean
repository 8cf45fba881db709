import Verif.Lemmas.Prunes
import Verif.Lemmas.SimpleRun
import Verif.Lemmas.DemoPrune

/-!
# C83 - Prunes at the same time

Nothing locks a repository, so two prunes may run on it at once. They lose nothing and leave nothing that no
snapshot needs among what is listed; but the repository they leave need not be one that can be opened.
-/

namespace Backpak.C83

open Spec Pipeline Prunes
open C65 (Apart Known)
open C66 (IsPrune)

variable {ι Id : Type} [DecidableEq ι] [LinearOrder Id]

section

variable {C : Codec Id} {env : CacheEnv Id} {ids : Ids Id} {cores : Nat} {U : Pack Id → Prop} {X : Index Id → Prop}
  {S : Snapshot Id → Prop} {R0 : Repo Id} {m : Shared ι Id}

/-- Any number of prunes take their steps in any order, or stop for good. At every instant the snapshots are those
there were at first, and each holds what it held; what an index that counts lists is there. -/
theorem nothing_lost (hU : Apart ids U X S) (hH : Healthy C ids R0) (hK : Known ids U X S R0)
    (h : Shared.Reachable (Allowed C env ids cores U X) R0 m) :
    m.repo.snapshots = R0.snapshots ∧
    (∀ i sn d, (i, sn) ∈ R0.snapshots → Holds C R0 sn.tree d → Holds C m.repo sn.tree d) ∧
    ∀ q mf, Listed m.repo.indexes q mf → ∃ bs, (q, bs) ∈ m.repo.packs ∧ Pack.manifestOf bs = mf := by
  obtain ⟨alone, hi⟩ := inv hU hH hK h
  exact ⟨hi.snaps, fun i sn d h1 h2 => hi.holds hH h1 h2, fun q mf => hi.present hH⟩

/-- Nor does what they leave hold anything that was not there, but for the empty tree. -/
theorem nothing_new (hU : Apart ids U X S) (hH : Healthy C ids R0) (hK : Known ids U X S R0)
    (h : Shared.Reachable (Allowed C env ids cores U X) R0 m) {b : Blob Id} (hb : Has C m.repo b) :
    Has C R0 b ∨ b = emptyBlob C := by
  obtain ⟨alone, hi⟩ := inv hU hH hK h
  exact hi.old hH hb

/-- Once the threads of one of them have come to their end, all that is listed is needed, whatever the others have
done. -/
theorem only_needed (hU : Apart ids U X S) (hH : Healthy C ids R0) (hK : Known ids U X S R0)
    (h : Shared.Reachable (Allowed C env ids cores U X) R0 m) {k : ι} {p : Proc Id} (hk : m.proc k = some p)
    (hj : p.s.joined = true) {q : Id} {mf : Manifest Id} (hl : Listed m.repo.indexes q mf) :
    ∀ e ∈ mf, Needed C R0 e.id ∧ Needed C m.repo e.id := by
  obtain ⟨alone, hi⟩ := inv hU hH hK h
  intro e he
  have h1 := hi.lists_needed hH hk ((hi.each k p hk).joined hj) hl he
  exact ⟨h1, hi.needed hH h1⟩

/-- So a prune that begins after that finds nothing to do. -/
theorem no_more (hU : Apart ids U X S) (hH : Healthy C ids R0) (hK : Known ids U X S R0)
    (h : Shared.Reachable (Allowed C env ids cores U X) R0 m) {k : ι} {p : Proc Id} (hk : m.proc k = some p)
    (hj : p.s.joined = true) {w : World Id} (hw : w.repo = m.repo) {src : Source Id} {snaps : List (Snap Id)}
    (hP : PruneOk C env ids w src snaps) (dry : Bool) : prunePlan C env w src snaps dry = .ok none := by
  obtain ⟨alone, hi⟩ := inv hU hH hK h
  exact hi.nothing hH hk ((hi.each k p hk).joined hj) hw hP dry

/-- When one has finished, no index is left that was there at first. -/
theorem old_gone (hU : Apart ids U X S) (hH : Healthy C ids R0) (hK : Known ids U X S R0)
    (h : Shared.Reachable (Allowed C env ids cores U X) R0 m) {k : ι} {p : Proc Id} (hk : m.proc k = some p)
    (hf : p.finished) : ∀ l ∈ BMap.keys R0.indexes, l ∉ BMap.keys m.repo.indexes := by
  intro l hl
  rcases Prunes.gone hU hH hK h k p hk l hl with h1 | h1
  · rw [hf.2] at h1; cases h1
  · exact h1

/-- The repository they leave, at any instant, is in good order if no blob is listed in two packs. -/
theorem healthy_partial (hU : Apart ids U X S) (hH : Healthy C ids R0) (hK : Known ids U X S R0)
    (h : Shared.Reachable (Allowed C env ids cores U X) R0 m)
    (honce : ∀ q mf q' mf' e e', Listed m.repo.indexes q mf → Listed m.repo.indexes q' mf' → e ∈ mf → e' ∈ mf' →
      e.id = e'.id → q = q') : Healthy C ids m.repo := by
  obtain ⟨alone, hi⟩ := inv hU hH hK h
  exact hi.healthy hH honce

/-- That is so at least until two of them have stored different indexes. -/
theorem healthy_one_partial (hU : Apart ids U X S) (hH : Healthy C ids R0) (hK : Known ids U X S R0)
    (h : Shared.Reachable (Allowed C env ids cores U X) R0 m)
    (hone : ∀ e ∈ m.repo.indexes, ∀ e' ∈ m.repo.indexes, e.1 ∉ BMap.keys R0.indexes → e'.1 ∉ BMap.keys R0.indexes → e = e') :
    Healthy C ids m.repo := by
  obtain ⟨alone, hi⟩ := inv hU hH hK h
  refine hi.healthy hH ?_
  intro q mf q' mf' e e' h1 h2 h3 h4 h5
  by_cases hE : ∀ k p, m.proc k = some p → (alone k).indexes = R0.indexes
  · obtain ⟨g1, _⟩ := hi.early hE
    rw [g1] at h1 h2
    exact hH.once q mf q' mf' e e' h1 h2 h3 h4 h5
  · simp only [not_forall] at hE
    obtain ⟨k0, p0, hk, hne⟩ := hE
    obtain ⟨k, p, i, x, g1, g2, g3, g4⟩ := (hi.listed hH hk hne q mf).mp h1
    obtain ⟨k', p', i', x', f1, f2, f3, f4⟩ := (hi.listed hH hk hne q' mf').mp h2
    cases hone _ g2 _ f2 g3.fresh f3.fresh
    obtain ⟨hL, _, hA, _⟩ := g3.packs (hi.each k p g1) hH
    obtain ⟨bs, a1, _, rfl⟩ := hA _ _ g4
    obtain ⟨bs', b1, _, rfl⟩ := hA _ _ f4
    obtain ⟨b, hb, rfl⟩ := List.mem_map.mp h3
    obtain ⟨b', hb', rfl⟩ := List.mem_map.mp h4
    exact hL.once q bs q' bs' b b' ⟨g4, a1⟩ ⟨f4, b1⟩ hb hb' h5

end

/-! ## What can go wrong, and an example -/

/-- A directory with two files of a chunk each. -/
def treeAB : Blob ObjectId := Demo.treeBlob (Demo.oneFile [97] Demo.chunkA ++ Demo.oneFile [98] Demo.chunkB)

/-- Its chunks are in one pack with one that nothing needs. -/
@[irreducible] def repo0 : Repo ObjectId :=
  Demo.repoOf C27.fullIds [[Demo.chunkA, Demo.chunkB, Demo.junk], [treeAB]] [Demo.snapOf treeAB 1]

theorem healthy0 : Healthy Demo.codec C27.fullIds repo0 := Check.healthy_sound (k := 2) (by decide +kernel)

@[irreducible] def plan0 : Plan ObjectId :=
  Demo.prunePlanOf (prunePlan Demo.codec Demo.env (Demo.clean repo0) (Check.opened repo0) (Demo.snapsOf repo0) false)

theorem plan0_eq : prunePlan Demo.codec Demo.env (Demo.clean repo0) (Check.opened repo0) (Demo.snapsOf repo0) false =
    .ok (some plan0) := by
  unfold plan0
  exact Demo.prunePlanOf_eq (by decide +kernel)

/-- A prune of it from an empty working directory. -/
def prune0 : Job ObjectId := ⟨liveCfg C27.fullIds 4 plan0.start, Demo.clean repo0, plan0.main, plan0.posts⟩

/-- The packs of all that follows, the entries of the indexes, and the indexes. -/
def packs : List (Pack ObjectId) := repo0.packs.map Prod.snd ++ arrangements (sends plan0.main)

@[irreducible] def entries : BMap ObjectId (Manifest ObjectId) := entriesOf C27.fullIds ([treeAB] :: arrangements (sends plan0.main))

def indexes : List (Index ObjectId) :=
  repo0.indexes.map Prod.snd ++ entries.sublists'.map fun ps => ⟨BMap.keys repo0.indexes, ps⟩

def U (bs : Pack ObjectId) : Prop := bs ∈ packs
def X (x : Index ObjectId) : Prop := x ∈ indexes
def S (s : Snapshot ObjectId) : Prop := s = Demo.snapOf treeAB 1

theorem packs_inj : ∀ x ∈ packs, ∀ y ∈ packs,
    C27.fullIds.packId (Pack.manifestOf x) = C27.fullIds.packId (Pack.manifestOf y) → x = y := by decide +kernel

theorem indexes_inj : (indexes.map C27.fullIds.indexId).Nodup := by decide +kernel

theorem apart0 : Apart C27.fullIds U X S :=
  ⟨fun x y hx hy => packs_inj x hx y hy, fun _ _ hx hy he => List.inj_on_of_nodup_map indexes_inj hx hy he,
    fun _ _ hx hy _ => hx.trans hy.symm⟩

theorem known0 : Known C27.fullIds U X S repo0 := by
  have h1 : ∀ e ∈ repo0.packs, e.1 = C27.fullIds.packId (Pack.manifestOf e.2) ∧ e.2 ∈ packs := by decide +kernel
  have h2 : ∀ e ∈ repo0.indexes, e.1 = C27.fullIds.indexId e.2 ∧ e.2 ∈ indexes := by decide +kernel
  have h3 : ∀ e ∈ repo0.snapshots, e.1 = C27.fullIds.snapId e.2 ∧ e.2 = Demo.snapOf treeAB 1 := by decide +kernel
  exact ⟨fun p bs h => h1 _ h, fun i x h => h2 _ h, fun i s h => h3 _ h⟩

theorem start0 : plan0.start.supersedes = BMap.keys repo0.indexes ∧ (∀ e ∈ plan0.start.packs, e ∈ entries) ∧
    ∀ bs ∈ arrangements (sends plan0.main), (C27.fullIds.packId (Pack.manifestOf bs), Pack.manifestOf bs) ∈ entries := by
  decide +kernel

theorem writes0 {x : Index ObjectId} (h : Writes (liveCfg C27.fullIds 4 plan0.start) (sends plan0.main) x) :
    x ∈ entries.sublists'.map fun ps => (⟨BMap.keys repo0.indexes, ps⟩ : Index ObjectId) := by
  obtain ⟨h1, h2⟩ := writes_among (E := entries) start0.2.1 h (by unfold entries; exact BMap.sorted_ofList _) start0.2.2
  obtain ⟨xs, xp⟩ := x
  have h3 : xs = BMap.keys repo0.indexes := h1.trans start0.1
  subst h3
  exact List.mem_map.mpr ⟨xp, List.mem_sublists'.mpr h2, rfl⟩

theorem new0 : ∀ x ∈ entries.sublists'.map fun ps => (⟨BMap.keys repo0.indexes, ps⟩ : Index ObjectId),
    C27.fullIds.indexId x ∉ BMap.keys repo0.indexes ∧ ∀ e ∈ repo0.indexes, e.2.supersedes = [] := by decide +kernel

theorem empty0 : ∀ b ∈ Check.blobs repo0, b.id = Demo.codec.emptyId → b.kind = .tree := by decide +kernel

theorem pruneOk0 : PruneOk Demo.codec Demo.env C27.fullIds (Demo.clean repo0) (Check.opened repo0) (Demo.snapsOf repo0) where
  clock := Demo.env_ok
  healthy := healthy0
  leftover := (Demo.leftover_clean healthy0).prune (by intro x hx; cases hx)
  opens := Check.opened_opens healthy0
  loaded i s := by
    unfold Demo.snapsOf
    rw [List.mem_map]
    constructor
    · exact fun hm => ⟨_, hm, rfl⟩
    · rintro ⟨⟨j, s'⟩, hm, he⟩; cases he; exact hm
  noEmpty x hx := by
    have := empty0 _ (Check.has_iff.mp hx).2 rfl
    cases this

theorem isPrune0 : IsPrune Demo.codec Demo.env C27.fullIds 4 prune0 plan0 := by
  refine ⟨⟨Check.opened repo0, Demo.snapsOf repo0, pruneOk0, ⟨Check.packsDiffer_sound (by decide +kernel), ?_⟩,
    plan0_eq⟩, rfl, rfl, rfl⟩
  intro x hx
  have := new0 x (writes0 hx)
  refine ⟨this.1, ?_⟩
  rintro ⟨i, y, h1, h2⟩
  rw [this.2 _ h1] at h2
  cases h2

abbrev Can : Job ObjectId → Prop := Allowed Demo.codec Demo.env C27.fullIds 4 U X

theorem can0 : Can prune0 := by
  refine ⟨⟨_, isPrune0⟩, ?_, fun x hx => List.mem_append_right _ (writes0 hx)⟩
  rintro bs (⟨p, hp⟩ | hf)
  · cases hp
  · exact List.mem_append_right _ (formed_arrangement hf)

/-- The repository when one of them has finished. -/
@[irreducible] def repo1 : Repo ObjectId := C27.endedAt plan0 repo0

theorem main0 : plan0.main = mainOf [] [Demo.chunkA, Demo.chunkB] := by decide +kernel

/-- What the other, whose pack of chunks was full after the first, has stored, and its index. -/
@[irreducible] def split : Repo ObjectId × Index ObjectId :=
  withPack C27.fullIds [Demo.chunkB] (withPack C27.fullIds [Demo.chunkA] (repo1, plan0.start))

@[irreducible] def repo2 : Repo ObjectId := putItem split.1 (.index (C27.fullIds.indexId split.2) split.2)

theorem splits : ∃ s, Reachable (liveCfg C27.fullIds 4 plan0.start) (Demo.clean repo1) plan0.main s ∧ s.joined = true ∧
    s.world = Demo.clean repo2 := by
  have h := split_run C27.fullIds plan0.start repo1 Demo.chunkA rfl [Demo.chunkB] (by decide +kernel)
    (by decide +kernel) (by decide +kernel) (by decide +kernel)
  rw [← main0] at h
  unfold repo2 split
  exact h

theorem can_end0 : C27.canEnd plan0 repo0 = true := by decide +kernel

/-- Both start; one runs to its end, then the other until it has joined its threads. -/
theorem run0 : ∃ (m : Shared Bool ObjectId) (p q : Proc ObjectId), Shared.Reachable Can repo0 m ∧
    m.proc true = some p ∧ m.proc false = some q ∧ p.finished ∧ q.s.joined = true ∧
    p.job = prune0 ∧ q.job = prune0 ∧ q.left = plan0.posts ∧ m.repo = repo2 := by
  let p0 : Proc ObjectId := ⟨prune0, init prune0.c prune0.w prune0.main, prune0.posts⟩
  let m1 : Shared Bool ObjectId := ⟨repo0, Function.update (fun _ => none) true (some p0)⟩
  let m2 : Shared Bool ObjectId := ⟨repo0, Function.update m1.proc false (some p0)⟩
  have s1 : Shared.Step Can ⟨repo0, fun _ => none⟩ m1 := Shared.Step.start ⟨repo0, fun _ => none⟩ true prune0 rfl rfl can0
  have s2 : Shared.Step Can m1 m2 := Shared.Step.start m1 false prune0 rfl rfl can0
  obtain ⟨p, p1, p2, p3⟩ := lift_finished (may := Can) (m := m2) (i := true) (j := prune0)
    (w' := Demo.clean repo1) rfl (by unfold repo1; exact C27.ends can_end0)
  obtain ⟨s, hs, hj, hw⟩ := splits
  let m3 : Shared Bool ObjectId := ⟨repo1, Function.update m2.proc true (some p)⟩
  obtain ⟨u, hu, hr⟩ := lift_run (may := Can) (m := m3) (i := false) (p := p0) rfl (by exact ctl_init ..) (t := s) hs
  rw [hw] at hr hu
  rw [← hu] at hj
  exact ⟨_, p, _, ((Relation.ReflTransGen.single s1).tail s2).trans (p3.trans hr), rfl, rfl, p2, hj, p1, rfl, rfl, rfl⟩

theorem twice0 : (∀ e ∈ repo2.indexes, ∀ e' ∈ repo2.indexes, e.1 ∉ e'.2.supersedes) ∧
    (∀ e ∈ repo2.indexes, ∀ e' ∈ repo2.indexes, ∀ q ∈ e.2.packs, ∀ q' ∈ e'.2.packs, q.1 = q'.1 → q.2 = q'.2) ∧
    ∃ e ∈ repo2.indexes, ∃ e' ∈ repo2.indexes, ∃ q ∈ e.2.packs, ∃ q' ∈ e'.2.packs,
      q.1 ≠ q'.1 ∧ ∃ x ∈ q.2, ∃ x' ∈ q'.2, x.id = x'.id := by decide +kernel

theorem sorted2 : BMap.Sorted repo2.indexes := by
  unfold BMap.Sorted
  decide +kernel

/-- Two prunes start at once on a repository in good order. No two objects have one ID by accident. One finishes
without an error, then the other stores its index; they cut their packs at different places, so the same blobs are in
two packs, and no command that needs to know where blobs are can open the repository any more. The index that the
second is to remove first is already gone. -/
theorem unopenable : ∃ (m : Shared Bool ObjectId) (p q : Proc ObjectId),
    Healthy Demo.codec C27.fullIds repo0 ∧ Apart C27.fullIds U X S ∧ Known C27.fullIds U X S repo0 ∧
    Shared.Reachable Can repo0 m ∧ m.proc true = some p ∧ m.proc false = some q ∧ p.finished ∧ q.s.joined = true ∧
    IsPrune Demo.codec Demo.env C27.fullIds 4 p.job plan0 ∧ IsPrune Demo.codec Demo.env C27.fullIds 4 q.job plan0 ∧
    (∃ l rest, q.left = .rmIndex l :: rest ∧ l ∉ BMap.keys m.repo.indexes) ∧ ∀ src, ¬ Opens m.repo src := by
  obtain ⟨m, p, q, h1, h2, h3, h4, h5, h6, h7, h8, h9⟩ := run0
  refine ⟨m, p, q, healthy0, apart0, known0, h1, h2, h3, h4, h5, by rw [h6]; exact isPrune0, by rw [h7]; exact isPrune0,
    ?_, ?_⟩
  · have hk : ∃ l, (BMap.keys repo0.indexes).head? = some l := by
      cases h : BMap.keys repo0.indexes with
      | nil => exact absurd h (by decide +kernel)
      | cons l ls => exact ⟨l, rfl⟩
    obtain ⟨l, hl⟩ := hk
    have h10 : plan0.posts.head? = (BMap.keys repo0.indexes).head?.map Post.rmIndex := by decide +kernel
    rw [hl] at h10
    cases hp : plan0.posts with
    | nil => rw [hp] at h10; cases h10
    | cons o rest =>
      rw [hp] at h10
      cases h10
      refine ⟨l, rest, by rw [h8, hp], ?_⟩
      exact old_gone apart0 healthy0 known0 h1 h2 h4 l (List.mem_of_mem_head? hl)
  · intro src ho
    rw [h9] at ho
    obtain ⟨g1, g2, ⟨i, x⟩, g3, ⟨i', x'⟩, g4, ⟨k, mf⟩, g5, ⟨k', mf'⟩, g6, g7, e, g8, e', g9, g10⟩ := twice0
    have hsup : ∀ e ∈ repo2.indexes, ¬ Superseded repo2.indexes e.1 := by
      rintro e he ⟨j, y, hy, hk⟩
      exact g1 _ he _ hy hk
    obtain ⟨files, hp, hx⟩ := ho.master
    refine (C65.twice_refused sorted2 ?_ ⟨i, x, ⟨g3, hsup _ g3⟩, g5⟩ ⟨i', x', ⟨g4, hsup _ g4⟩, g6⟩ g8 g9 g10 g7 files hp
      src.index hx).1 ⟨_, ho.blobMap⟩
    rintro k m1 m2 ⟨j1, y1, ⟨a1, _⟩, b1⟩ ⟨j2, y2, ⟨a2, _⟩, b2⟩
    exact g2 _ a1 _ a2 _ b1 _ b2 rfl

/-- Nonetheless nothing is lost in that run, and all that is listed is needed. -/
example : ∃ (m : Shared Bool ObjectId), Shared.Reachable Can repo0 m ∧ (∀ src, ¬ Opens m.repo src) ∧
    m.repo.snapshots = repo0.snapshots ∧
    (∀ i sn d, (i, sn) ∈ repo0.snapshots → Holds Demo.codec repo0 sn.tree d → Holds Demo.codec m.repo sn.tree d) ∧
    ∀ q mf, Listed m.repo.indexes q mf → ∀ e ∈ mf, Needed Demo.codec m.repo e.id := by
  obtain ⟨m, p, q, _, _, _, h1, h2, _, h4, _, _, _, _, h5⟩ := unopenable
  obtain ⟨h6, h7, _⟩ := nothing_lost apart0 healthy0 known0 h1
  exact ⟨m, h1, h5, h6, h7, fun q mf hl e he => (only_needed apart0 healthy0 known0 h1 h2 h4.1 hl e he).2⟩

theorem one1 : ∀ e ∈ repo1.indexes, ∀ e' ∈ repo1.indexes, e = e' := by decide +kernel

/-- Until the second has stored its index the repository is in good order, and it is no longer as it was at first. -/
example : ∃ (m : Shared Bool ObjectId) (p : Proc ObjectId), Shared.Reachable Can repo0 m ∧ m.proc true = some p ∧
    p.finished ∧ m.proc false ≠ none ∧ Healthy Demo.codec C27.fullIds m.repo ∧ m.repo.indexes ≠ repo0.indexes := by
  let p0 : Proc ObjectId := ⟨prune0, init prune0.c prune0.w prune0.main, prune0.posts⟩
  let m1 : Shared Bool ObjectId := ⟨repo0, Function.update (fun _ => none) true (some p0)⟩
  let m2 : Shared Bool ObjectId := ⟨repo0, Function.update m1.proc false (some p0)⟩
  have s1 : Shared.Step Can ⟨repo0, fun _ => none⟩ m1 := Shared.Step.start ⟨repo0, fun _ => none⟩ true prune0 rfl rfl can0
  have s2 : Shared.Step Can m1 m2 := Shared.Step.start m1 false prune0 rfl rfl can0
  obtain ⟨p, _, p2, p3⟩ := lift_finished (may := Can) (m := m2) (i := true) (j := prune0)
    (w' := Demo.clean repo1) rfl (by unfold repo1; exact C27.ends can_end0)
  have hr := ((Relation.ReflTransGen.single s1).tail s2).trans p3
  refine ⟨_, p, hr, rfl, p2, Option.some_ne_none _, ?_, ?_⟩
  · exact healthy_one_partial apart0 healthy0 known0 hr (fun e h1 e' h2 _ _ => one1 e h1 e' h2)
  · show repo1.indexes ≠ repo0.indexes
    decide +kernel

end Backpak.C83
