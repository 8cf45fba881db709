import Verif.Lemmas.PrunePieces
import Verif.Props.C83

/-!
# C84 - A prune that reads while others write

A prune reads the indexes, then the snapshots with all their trees, and then lists the indexes once more to know which
to replace. A backup can finish in between.
-/

namespace Backpak.C84

open Spec Pipeline

variable {Id : Type} [LinearOrder Id] {C : Codec Id} {env : CacheEnv Id} {ids : Ids Id} {cores : Nat}
  {R₁ R₂ : Repo Id} {w w' : World Id} {src : Source Id} {snaps : List (Snap Id)} {plan : Plan Id}

/-- Every snapshot that it reads keeps what it holds, at every instant; no snapshot is added or removed. -/
theorem read_kept (h : InPieces C env ids R₁ R₂ w src snaps) (hN : PruneNoClash ids cores w plan)
    (hp : prunePlan C env w src snaps false = .ok (some plan))
    (hi : Instant (liveCfg ids cores plan.start) w plan.main plan.posts w') :
    w'.repo.snapshots = w.repo.snapshots ∧
    ∀ i sn d, (i, sn) ∈ R₂.snapshots → Holds C R₂ sn.tree d → Holds C w'.repo sn.tree d := by
  obtain ⟨c, reach, h'⟩ := h.piecemeal hN hp
  have hn := h'.instant h hi
  refine ⟨hn.snaps, fun i sn d h1 h2 => ?_⟩
  have h3 := h.held hp h1 h2
  rcases hn.has with g | g
  · exact has_mono_holds (fun b hb => g b ((h.grown.trans h.grown').has hb)) h3
  · exact h'.holds w'.repo (fun b hb => (g b).mpr hb) i sn d h1
      (has_mono_holds (R := R₁) (R' := seen R₁ R₂) (fun _ h => h) h3)

/-- So if no snapshot has been stored since it read them, the repository is in good order at every instant. -/
theorem healthy_partial (h : InPieces C env ids R₁ R₂ w src snaps) (hN : PruneNoClash ids cores w plan)
    (hp : prunePlan C env w src snaps false = .ok (some plan))
    (hi : Instant (liveCfg ids cores plan.start) w plan.main plan.posts w')
    (hs : ∀ e ∈ w.repo.snapshots, e ∈ R₂.snapshots) : Healthy C ids w'.repo := by
  obtain ⟨h1, h2⟩ := read_kept h hN hp hi
  obtain ⟨c, reach, h'⟩ := h.piecemeal hN hp
  have hn := h'.instant h hi
  refine ⟨hn.sound.packs_sorted, hn.sound.indexes_sorted, by rw [h1]; exact h.third.snapshots_sorted, hn.packs,
    fun i x h => (hn.indexes i x h).1, fun i x h => (hn.indexes i x h).2, hn.sound.present, hn.sound.distinct,
    hn.sound.once, hn.sound.one_kind, hn.sound.hashes, hn.sound.trees, hn.sound.full, fun i sn h3 => ?_⟩
  rw [h1] at h3
  have h4 := hs _ h3
  obtain ⟨d, hd⟩ := h.second.readable i sn h4
  exact ⟨d, h2 i sn d h4 hd⟩

/-- When it has finished, nothing can be found but what could be found through the indexes it read at first: what only
an index lists that was stored in between is lost to view. -/
theorem unread_gone (h : InPieces C env ids R₁ R₂ w src snaps) (hN : PruneNoClash ids cores w plan)
    (hp : prunePlan C env w src snaps false = .ok (some plan))
    (hf : Finished (liveCfg ids cores plan.start) w plan.main plan.posts w') {b : Blob Id} (hb : Has C w'.repo b) :
    Has C R₁ b ∨ b = emptyBlob C := by
  obtain ⟨c, reach, h'⟩ := h.piecemeal hN hp
  cases hf with
  | mk s hs hj =>
    obtain ⟨x, news, _, ht, hh⟩ := h'.later h (h'.reachable hs) hj (List.append_nil _).symm
    rcases (hh b).mp ((ht.has b).mp hb) with h1 | ⟨p, bs, h1, h2⟩
    · exact (h'.needed b h1).2.symm
    · exact (h'.kept p bs b h1 h2).2.symm

/-- A snapshot in the repository that needs any of that stays, and cannot be read any more. -/
theorem unread_unreadable (h : InPieces C env ids R₁ R₂ w src snaps) (hN : PruneNoClash ids cores w plan)
    (hp : prunePlan C env w src snaps false = .ok (some plan))
    (hf : Finished (liveCfg ids cores plan.start) w plan.main plan.posts w') {i : Id} {sn : Snapshot Id}
    (hsn : (i, sn) ∈ w.repo.snapshots) {u : Id} {t : Tree Id} (hr : Reaches (TreeAt C w.repo) sn.tree u)
    (ht : TreeAt C w.repo u t) (hu : (t ≠ [] ∧ ¬ Has C R₁ ⟨C.encTree t, u, .tree⟩) ∨
      ∃ c ∈ chunksInTree t, ∀ x, ¬ Has C R₁ ⟨x, c, .chunk⟩) :
    (i, sn) ∈ w'.repo.snapshots ∧ ¬ Readable C w'.repo sn := by
  have hg := h.grown.trans h.grown'
  have hold : ∀ b, Has C w'.repo b → Has C w.repo b ∨ b = emptyBlob C :=
    fun b hb => (unread_gone h hN hp hf hb).imp hg.has id
  constructor
  · have hi : Instant (liveCfg ids cores plan.start) w plan.main plan.posts w' := by
      cases hf with
      | mk s hs hj => exact .after s plan.posts [] hs hj (List.append_nil _).symm
    rw [(read_kept h hN hp hi).1]
    exact hsn
  · rintro ⟨d, hd⟩
    obtain ⟨_, d', t', ht', hd'⟩ := reaches_kept h.third.sound hold hr hd
    cases h.third.sound.treeAt_one ht (treeAt_kept hold ht')
    rcases hu with ⟨hne, hu⟩ | ⟨c, hc, hu⟩
    · rcases ht'.2.2 with h1 | h1
      · exact hne h1
      · rcases unread_gone h hN hp hf h1 with h2 | h2
        · exact hu h2
        · exact hne (enc_inj okTree_nil ht'.1 (congrArg Blob.data h2).symm).symm
    · obtain ⟨x, hx⟩ := holds_chunk hd' hc
      rcases unread_gone h hN hp hf hx with h2 | h2
      · exact hu x h2
      · cases congrArg Blob.kind h2

/-- But a pack that was not listed when it read the indexes is not removed, so rebuilding the index finds it. -/
theorem unread_packs_stay (h : InPieces C env ids R₁ R₂ w src snaps) (hN : PruneNoClash ids cores w plan)
    (hp : prunePlan C env w src snaps false = .ok (some plan))
    (hi : Instant (liveCfg ids cores plan.start) w plan.main plan.posts w') {q : Id} {bs : Pack Id}
    (hq : (q, bs) ∈ w.repo.packs) (hl : ∀ m, ¬ Listed R₁.indexes q m) : (q, bs) ∈ w'.repo.packs := by
  obtain ⟨c, reach, h'⟩ := h.piecemeal hN hp
  have hkeep : ∀ s, Reachable c w plan.main s → (q, bs) ∈ s.world.repo.packs := fun s hs =>
    (effect h'.run hs).keep _ hq
  cases hi with
  | during s hs => exact hkeep s (h'.reachable hs)
  | after s done rest hs hj hd =>
    have hops : ∀ o ∈ done, o ≠ .rmPack q := by
      rintro o ho rfl
      have ho : Post.rmPack q ∈ plan.posts := by rw [hd]; exact List.mem_append_left _ ho
      rw [h'.posts, prunePosts, List.mem_append, List.mem_map, List.mem_map] at ho
      rcases ho with ⟨j, _, h1⟩ | ⟨p, h1, h2⟩
      · cases h1
      · cases h2
        obtain ⟨⟨p, m⟩, hm, rfl⟩ := List.mem_map.mp h1
        exact hl m ((opens_mem h.first.sound h.opens _ _).mp (List.mem_filter.mp hm).1)
    have : ∀ (ops : List (Post Id)) (R : Repo Id), (∀ o ∈ ops, o ≠ .rmPack q) → (q, bs) ∈ R.packs →
        (q, bs) ∈ (ops.foldl (applyPost ids) R).packs := by
      intro ops
      induction ops with
      | nil => exact fun R _ h => h
      | cons o ops ih =>
        intro R ho hR
        refine ih _ (fun o h => ho o (List.mem_cons_of_mem _ h)) ?_
        have := ho o List.mem_cons_self
        cases o with
        | putSnap sn => exact hR
        | rmIndex k => exact hR
        | rmPack k =>
          refine BMap.mem_erase_iff.mpr ⟨?_, hR⟩
          rintro rfl
          exact this rfl
    exact this done _ hops (hkeep s (h'.reachable hs))

/-- A prune that reads a snapshot without having read the index that lists what it needs stops before it writes
anything, if it would have anything to do. -/
theorem half_read_stops (h : InPieces C env ids R₁ R₂ w src snaps) {i : Id} {sn : Snapshot Id}
    (hsn : (i, sn) ∈ R₂.snapshots) (hr : ¬ Readable C R₁ sn) (dry : Bool) :
    (∃ e, prunePlan C env w src snaps dry = .error e) ∨ prunePlan C env w src snaps dry = .ok none := by
  cases hp : prunePlan C env w src snaps dry with
  | error e => exact .inl ⟨e, rfl⟩
  | ok r =>
    cases r with
    | none => exact .inr rfl
    | some plan =>
      obtain ⟨d, hd⟩ := h.second.readable i sn hsn
      exact absurd ⟨d, h.held hp hsn hd⟩ hr

/-! ## What can go wrong, and an example -/

/-- The repository that a prune opens, and the snapshot it loads: `C83.repo0`. Then a backup of another directory runs
from start to finish. -/
def args : BackupArgs := { C27.args1 with
  fs := .leaf [98] (Demo.fileMd 2 5) (.file [7, 8]) .nil
  now := 3000 }

@[irreducible] def planB : Plan ObjectId :=
  Demo.planOf (backupPlan Demo.codec Demo.cut (Demo.clean C83.repo0) (Check.opened C83.repo0) (Demo.snapsOf C83.repo0) args)

theorem planB_eq : backupPlan Demo.codec Demo.cut (Demo.clean C83.repo0) (Check.opened C83.repo0)
    (Demo.snapsOf C83.repo0) args = .ok planB := by
  unfold planB
  exact Demo.planOf_eq (by decide +kernel)

@[irreducible] def repoB : Repo ObjectId := C27.endedAt planB C83.repo0

theorem canB : C27.canEnd planB C83.repo0 = true := by decide +kernel

theorem healthyB : Healthy Demo.codec C27.fullIds repoB := Check.healthy_sound (k := 2) (by decide +kernel)

/-- Now the prune lists the indexes. -/
@[irreducible] def planP : Plan ObjectId :=
  Demo.prunePlanOf (prunePlan Demo.codec Demo.env (Demo.clean repoB) (Check.opened C83.repo0) (Demo.snapsOf C83.repo0) false)

theorem planP_eq : prunePlan Demo.codec Demo.env (Demo.clean repoB) (Check.opened C83.repo0) (Demo.snapsOf C83.repo0) false =
    .ok (some planP) := by
  unfold planP
  exact Demo.prunePlanOf_eq (by decide +kernel)

@[irreducible] def repoP : Repo ObjectId := C27.endedAt planP repoB

theorem canP : C27.canEnd planP repoB = true := by decide +kernel

theorem more : (∀ e ∈ C83.repo0.packs, e ∈ repoB.packs) ∧ (∀ e ∈ C83.repo0.indexes, e ∈ repoB.indexes) ∧
    (∀ e ∈ repoB.indexes, e.2.supersedes = []) ∧ ∀ e ∈ C83.repo0.snapshots, e ∈ repoB.snapshots := by decide +kernel

theorem grown : AddedTo C83.repo0 repoB := by
  obtain ⟨h1, h2, h3, _⟩ := more
  refine ⟨h1, ?_⟩
  rintro q m ⟨i, x, ⟨h4, _⟩, h5⟩
  refine ⟨i, x, ⟨h2 _ h4, ?_⟩, h5⟩
  rintro ⟨j, y, h6, h7⟩
  rw [h3 _ h6] at h7
  cases h7

theorem pieces : InPieces Demo.codec Demo.env C27.fullIds C83.repo0 C83.repo0 (Demo.clean repoB) (Check.opened C83.repo0)
    (Demo.snapsOf C83.repo0) where
  clock := Demo.env_ok
  first := C83.healthy0
  second := C83.healthy0
  third := healthyB
  grown := .refl _
  grown' := grown
  wip := rfl
  names p bs h := by cases h
  opens := C83.pruneOk0.opens
  loaded := C83.pruneOk0.loaded
  noEmpty := C83.pruneOk0.noEmpty

/-- The indexes the prune can write. -/
@[irreducible] def entries : BMap ObjectId (Manifest ObjectId) :=
  entriesOf C27.fullIds ([C83.treeAB] :: arrangements (sends planP.main))

theorem startP : planP.start.supersedes = BMap.keys repoB.indexes ∧ (∀ e ∈ planP.start.packs, e ∈ entries) ∧
    ∀ bs ∈ arrangements (sends planP.main), (C27.fullIds.packId (Pack.manifestOf bs), Pack.manifestOf bs) ∈ entries := by
  decide +kernel

theorem newP : ∀ x ∈ entries.sublists'.map fun ps => (⟨BMap.keys repoB.indexes, ps⟩ : Index ObjectId),
    C27.fullIds.indexId x ∉ BMap.keys repoB.indexes := by decide +kernel

theorem noClash : PruneNoClash C27.fullIds 4 (Demo.clean repoB) planP := by
  refine ⟨Check.packsDiffer_sound (by decide +kernel), ?_⟩
  intro x hx
  obtain ⟨h1, h2⟩ := writes_among (E := entries) startP.2.1 hx (by unfold entries; exact BMap.sorted_ofList _) startP.2.2
  have hm : x ∈ entries.sublists'.map fun ps => (⟨BMap.keys repoB.indexes, ps⟩ : Index ObjectId) := by
    obtain ⟨xs, xp⟩ := x
    have h3 : xs = BMap.keys repoB.indexes := h1.trans startP.1
    subst h3
    exact List.mem_map.mpr ⟨xp, List.mem_sublists'.mpr h2, rfl⟩
  refine ⟨newP x hm, ?_⟩
  rintro ⟨i, y, h3, h4⟩
  rw [more.2.2.1 _ h3] at h4
  cases h4

theorem snapsB : ∃ e ∈ repoB.snapshots, e ∉ C83.repo0.snapshots ∧ Post.putSnap e.2 ∈ planB.posts ∧
    e ∈ repoP.snapshots ∧ e.2.tree ≠ Demo.codec.emptyId ∧ ∀ b ∈ Check.blobs repoP, b.id ≠ e.2.tree := by decide +kernel

/-- A prune reads the indexes and the snapshots of a repository in good order. Then a backup runs, from start to finish,
without an error. Then the prune lists the indexes, and goes on to its end without an error. The snapshot of the backup
is there, and cannot be read. -/
theorem finished_backup_lost : Healthy Demo.codec C27.fullIds C83.repo0 ∧
    InPieces Demo.codec Demo.env C27.fullIds C83.repo0 C83.repo0 (Demo.clean repoB) (Check.opened C83.repo0)
      (Demo.snapsOf C83.repo0) ∧ PruneNoClash C27.fullIds 4 (Demo.clean repoB) planP ∧
    backupPlan Demo.codec Demo.cut (Demo.clean C83.repo0) (Check.opened C83.repo0) (Demo.snapsOf C83.repo0) args = .ok planB ∧
    Finished (liveCfg C27.fullIds 4 planB.start) (Demo.clean C83.repo0) planB.main planB.posts (Demo.clean repoB) ∧
    Healthy Demo.codec C27.fullIds repoB ∧
    prunePlan Demo.codec Demo.env (Demo.clean repoB) (Check.opened C83.repo0) (Demo.snapsOf C83.repo0) false = .ok (some planP) ∧
    Finished (liveCfg C27.fullIds 4 planP.start) (Demo.clean repoB) planP.main planP.posts (Demo.clean repoP) ∧
    ∃ e ∈ repoP.snapshots, Post.putSnap e.2 ∈ planB.posts ∧ Readable Demo.codec repoB e.2 ∧ ¬ Readable Demo.codec repoP e.2 := by
  refine ⟨C83.healthy0, pieces, noClash, planB_eq, ?_, healthyB, planP_eq, ?_, ?_⟩
  · unfold repoB; exact C27.ends canB
  · unfold repoP; exact C27.ends canP
  · obtain ⟨e, h1, _, h2, h3, h4, h5⟩ := snapsB
    refine ⟨e, h3, h2, healthyB.readable _ _ h1, ?_⟩
    rintro ⟨d, t, ⟨_, ht, hh⟩, _⟩
    rcases hh with rfl | hh
    · exact h4 ht.symm
    · exact h5 _ (Check.has_iff.mp hh).2 rfl

/-- Nothing else is lost, and what was not listed before is still stored. -/
example : (∀ i sn d, (i, sn) ∈ C83.repo0.snapshots → Holds Demo.codec C83.repo0 sn.tree d → Holds Demo.codec repoP sn.tree d) ∧
    C83.repo0.snapshots ≠ [] ∧ (∃ e ∈ repoB.packs, e ∉ C83.repo0.packs) ∧ (∃ e ∈ C83.repo0.packs, e ∉ repoP.packs) ∧
    ∀ e ∈ repoB.packs, e ∉ C83.repo0.packs → e ∈ repoP.packs := by
  have hf : Finished (liveCfg C27.fullIds 4 planP.start) (Demo.clean repoB) planP.main planP.posts (Demo.clean repoP) := by
    unfold repoP; exact C27.ends canP
  have hi : Instant (liveCfg C27.fullIds 4 planP.start) (Demo.clean repoB) planP.main planP.posts (Demo.clean repoP) := by
    generalize Demo.clean repoP = w' at hf ⊢
    cases hf with
    | mk s hs hj => exact .after s planP.posts [] hs hj (List.append_nil _).symm
  refine ⟨(read_kept pieces noClash planP_eq hi).2, by decide +kernel, by decide +kernel, by decide +kernel, ?_⟩
  rintro ⟨q, bs⟩ h1 h2
  refine unread_packs_stay pieces noClash planP_eq hi h1 (fun m hl => ?_)
  obtain ⟨cs, h3, _⟩ := C83.healthy0.present q m hl
  have := grown.packs _ h3
  have h4 : bs = cs := BMap.get?_eq_some_iff healthyB.packs_sorted |>.mpr h1 |>.symm.trans
    ((BMap.get?_eq_some_iff healthyB.packs_sorted).mpr this) |> Option.some.inj
  subst h4
  exact h2 h3

/-- The repository when the backup has stored its index and not yet its snapshot. -/
def repoJ : Repo ObjectId := { repoB with snapshots := C83.repo0.snapshots }

theorem piecesJ : InPieces Demo.codec Demo.env C27.fullIds C83.repo0 C83.repo0 (Demo.clean repoJ) (Check.opened C83.repo0)
    (Demo.snapsOf C83.repo0) :=
  { pieces with
    third := Check.healthy_sound (k := 2) (by decide +kernel)
    grown' := ⟨grown.packs, grown.listed⟩
    names := fun p bs h => by cases h }

/-- If the prune lists the indexes then, it leaves the repository in good order, though without what the backup has
stored. -/
example : repoJ = C66.joinedAt planB C83.repo0 ∧
    prunePlan Demo.codec Demo.env (Demo.clean repoJ) (Check.opened C83.repo0) (Demo.snapsOf C83.repo0) false =
      .ok (some planP) ∧
    ∀ w', Instant (liveCfg C27.fullIds 4 planP.start) (Demo.clean repoJ) planP.main planP.posts w' →
      Healthy Demo.codec C27.fullIds w'.repo := by
  refine ⟨by decide +kernel, planP_eq, fun w' hi => ?_⟩
  exact healthy_partial piecesJ ⟨noClash.packs, noClash.indexes⟩ planP_eq hi (fun e he => he)

/-- If the backup had finished before the prune loaded the snapshots, but not before it read the indexes, the prune would
have stopped. -/
example : InPieces Demo.codec Demo.env C27.fullIds C83.repo0 repoB (Demo.clean repoB) (Check.opened C83.repo0)
      (Demo.snapsOf repoB) ∧ (∃ e ∈ repoB.snapshots, ¬ Readable Demo.codec C83.repo0 e.2) ∧
    ∃ e, prunePlan Demo.codec Demo.env (Demo.clean repoB) (Check.opened C83.repo0) (Demo.snapsOf repoB) false = .error e := by
  have hP : InPieces Demo.codec Demo.env C27.fullIds C83.repo0 repoB (Demo.clean repoB) (Check.opened C83.repo0)
      (Demo.snapsOf repoB) :=
    { pieces with
      second := healthyB
      grown := grown
      grown' := .refl _
      names := fun p bs h => by cases h
      loaded := fun i s => by
        unfold Demo.snapsOf
        rw [List.mem_map]
        constructor
        · exact fun hm => ⟨_, hm, rfl⟩
        · rintro ⟨⟨j, s'⟩, hm, he⟩; cases he; exact hm }
  have hr : ∃ e ∈ repoB.snapshots, ¬ Readable Demo.codec C83.repo0 e.2 := by
    have : ∃ e ∈ repoB.snapshots, e.2.tree ≠ Demo.codec.emptyId ∧ ∀ b ∈ Check.blobs C83.repo0, b.id ≠ e.2.tree := by
      decide +kernel
    obtain ⟨e, h1, h4, h5⟩ := this
    refine ⟨e, h1, ?_⟩
    rintro ⟨d, t, ⟨_, ht, hh⟩, _⟩
    rcases hh with rfl | hh
    · exact h4 ht.symm
    · exact h5 _ (Check.has_iff.mp hh).2 rfl
  refine ⟨hP, hr, ?_⟩
  obtain ⟨e, h1, h2⟩ := hr
  rcases half_read_stops hP (i := e.1) (sn := e.2) h1 h2 false with h | h
  · exact h
  · have h3 : Demo.isOk (prunePlan Demo.codec Demo.env (Demo.clean repoB) (Check.opened C83.repo0) (Demo.snapsOf repoB)
        false) = false := by decide +kernel
    rw [h] at h3
    cases h3

end Backpak.C84
