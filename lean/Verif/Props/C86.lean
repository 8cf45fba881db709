import Verif.Props.C81
import Verif.Props.C84

/-!
# C86 - What rebuild-index repairs

Whatever has become of the indexes, rebuild-index makes everything findable that is in the packs. But if a blob is in
two of them, then no command can open the repository, and no command, rebuild-index included, ever changes that.
-/

namespace Backpak.C86

open Spec Pipeline

variable {Id : Type} [LinearOrder Id] {C : Codec Id} {ids : Ids Id} {live : Bool}

/-- A blob that is in some pack, listed or not. -/
def InPacks (C : Codec Id) (R : Repo Id) (b : Blob Id) : Prop :=
  C.hash b.data = b.id ∧ ∃ p bs, (p, bs) ∈ R.packs ∧ b ∈ bs

omit [LinearOrder Id] in
theorem InPacks.of_has {R : Repo Id} {b : Blob Id} (h : Has C R b) : InPacks C R b := by
  obtain ⟨h1, p, bs, _, h2, h3⟩ := h
  exact ⟨h1, p, bs, h2, h3⟩

/-! ## What is found again -/

/-- When it has finished, what can be found is exactly what is in the packs, whatever the indexes were. -/
theorem found_iff {w w' : World Id} (hp : BMap.Sorted w.repo.packs) (hx : BMap.Sorted w.repo.indexes)
    (hnew : C28.NewName ids w.repo) (h : Rebuild.Finished ids true w w') (b : Blob Id) :
    Has C w'.repo b ↔ InPacks C w.repo b := by
  obtain ⟨h1, _, h2⟩ := C28.all_listed w w' hp hx hnew h
  constructor
  · intro hb
    have := InPacks.of_has hb
    unfold InPacks at this ⊢
    rwa [h1] at this
  · rintro ⟨h3, p, bs, h4, h5⟩
    exact ⟨h3, p, bs, (h2 _ _).mpr ⟨bs, h4, rfl⟩, by rw [h1]; exact h4, h5⟩

/-- The blobs that a root stands on: the trees it reaches, but for the empty one, and the chunks of their files. -/
def Uses (C : Codec Id) (R : Repo Id) (root : Id) (b : Blob Id) : Prop :=
  Has C R b ∧ ∃ u t, Reaches (TreeAt C R) root u ∧ TreeAt C R u t ∧
    ((t ≠ [] ∧ b = ⟨C.encTree t, u, .tree⟩) ∨ (b.kind = .chunk ∧ ∃ n cs md, (n, ⟨.file cs, md⟩) ∈ t ∧ b.id ∈ cs))

/-- Having all that a root stands on, another repository holds the same. -/
theorem holds_of_uses {R R' : Repo Id} {root : Id} {d : Dir Bytes} (h : Holds C R root d)
    (hu : ∀ b, Uses C R root b → Has C R' b) : Holds C R' root d := by
  obtain ⟨t, ht, hd⟩ := h
  have htree : ∀ u t, Reaches (TreeAt C R) root u → TreeAt C R u t → TreeAt C R' u t := by
    intro u t hr ht
    refine ⟨ht.1, ht.2.1, ?_⟩
    by_cases h0 : t = []
    · exact .inl h0
    · exact ht.2.2.imp id fun hb => hu _ ⟨hb, u, t, hr, ht, .inl ⟨h0, rfl⟩⟩
  have hfile : ∀ {cs : List Id} {x : Bytes}, FileHolds C R cs x →
      (∀ y, ∀ c ∈ cs, Has C R ⟨y, c, .chunk⟩ → Has C R' ⟨y, c, .chunk⟩) → FileHolds C R' cs x := by
    intro cs x h
    induction h with
    | nil => exact fun _ => .nil
    | cons h1 _ ih =>
      intro hc
      exact .cons (hc _ _ List.mem_cons_self h1) (ih fun y c h => hc y c (List.mem_cons_of_mem _ h))
  have key : ∀ {t : Tree Id} {d : Dir Bytes}, DirHolds C R t d →
      (∃ u t0, Reaches (TreeAt C R) root u ∧ TreeAt C R u t0 ∧ ∀ e ∈ t, e ∈ t0) → DirHolds C R' t d := by
    intro t d h
    induction h with
    | nil => exact fun _ => .nil
    | @file n cs md t x d h1 _ ih =>
      rintro ⟨u, t0, h2, h3, h4⟩
      refine .file (hfile h1 fun y c hc hb => hu _ ⟨hb, u, t0, h2, h3,
        .inr ⟨rfl, n, cs, md, h4 _ List.mem_cons_self, hc⟩⟩) (ih ?_)
      exact ⟨u, t0, h2, h3, fun e he => h4 e (List.mem_cons_of_mem _ he)⟩
    | link _ ih =>
      rintro ⟨u, t0, h2, h3, h4⟩
      exact .link (ih ⟨u, t0, h2, h3, fun e he => h4 e (List.mem_cons_of_mem _ he)⟩)
    | @dir n id md t t' sub d h0 _ _ ih1 ih2 =>
      rintro ⟨u, t0, h2, h3, h4⟩
      have hr := reaches_sub h2 h3 ⟨n, md, h4 _ List.mem_cons_self⟩
      exact .dir (htree _ _ hr h0) (ih1 ⟨id, t', hr, h0, fun e he => he⟩)
        (ih2 ⟨u, t0, h2, h3, fun e he => h4 e (List.mem_cons_of_mem _ he)⟩)
  exact ⟨t, htree _ _ .refl ht, key hd ⟨root, t, .refl, ht, fun e he => he⟩⟩

/-- What a root once stood for it stands for again, if all it used is still in packs. -/
theorem brings_back {R : Repo Id} {w w' : World Id} (hp : BMap.Sorted w.repo.packs) (hx : BMap.Sorted w.repo.indexes)
    (hnew : C28.NewName ids w.repo) (h : Rebuild.Finished ids true w w') {root : Id} {d : Dir Bytes}
    (hd : Holds C R root d) (hu : ∀ b, Uses C R root b → InPacks C w.repo b) : Holds C w'.repo root d :=
  holds_of_uses hd fun b hb => (found_iff hp hx hnew h b).mpr (hu b hb)

/-- So whatever happens to the indexes of a repository, also if they are all gone, every snapshot is as it was once they
have been rebuilt. -/
theorem indexes_expendable {R : Repo Id} {w w' : World Id} (hp : BMap.Sorted w.repo.packs)
    (hx : BMap.Sorted w.repo.indexes) (hnew : C28.NewName ids w.repo) (h : Rebuild.Finished ids true w w')
    (hk : ∀ e ∈ R.packs, e ∈ w.repo.packs) {root : Id} {d : Dir Bytes} (hd : Holds C R root d) :
    Holds C w'.repo root d := by
  refine brings_back hp hx hnew h hd fun b hb => ?_
  obtain ⟨h1, p, bs, _, h2, h3⟩ := hb.1
  exact ⟨h1, p, bs, hk _ h2, h3⟩

/-! ## After a prune that has lost a backup (C84) -/

section Pieces

variable {env : CacheEnv Id} {cores : Nat} {R₁ R₂ : Repo Id} {w w' v v' : World Id} {src : Source Id}
  {snaps : List (Snap Id)} {plan : Plan Id}

theorem instant_of_finished {c : Cfg Id} (hf : Finished c w plan.main plan.posts w') :
    Instant c w plan.main plan.posts w' := by
  cases hf with
  | mk s hs hj => exact .after s plan.posts [] hs hj (List.append_nil _).symm

omit [LinearOrder Id] in
theorem reaches_grown {R R' : Repo Id} (h : AddedTo R R') {root u : Id} (hr : Reaches (TreeAt C R) root u) :
    Reaches (TreeAt C R') root u := by
  induction hr with
  | refl => exact .refl
  | step h1 h2 _ ih => exact .step (h.treeAt h1) h2 ih

/-- What the snapshots stand on that the prune had read is still found when it has finished. -/
theorem used_kept (h : InPieces C env ids R₁ R₂ w src snaps) (hN : PruneNoClash ids cores w plan)
    (hp : prunePlan C env w src snaps false = .ok (some plan))
    (hf : Finished (liveCfg ids cores plan.start) w plan.main plan.posts w') {i : Id} {sn : Snapshot Id}
    (hsn : (i, sn) ∈ R₂.snapshots) {b : Blob Id} (hu : Uses C R₂ sn.tree b) : Has C w'.repo b := by
  have hg := h.grown.trans h.grown'
  have hold : ∀ b, Has C w'.repo b → Has C w.repo b ∨ b = emptyBlob C :=
    fun b hb => (C84.unread_gone h hN hp hf hb).imp hg.has id
  obtain ⟨d, hd⟩ := h.second.readable i sn hsn
  have hd' := (C84.read_kept h hN hp (instant_of_finished hf)).2 i sn d hsn hd
  obtain ⟨hb, u, t, hr, ht, hc⟩ := hu
  obtain ⟨_, d', t', ht', hd'⟩ := reaches_kept h.third.sound hold (reaches_grown h.grown' hr) hd'
  cases h.third.sound.treeAt_one (h.grown'.treeAt ht) (treeAt_kept hold ht')
  rcases hc with ⟨h0, rfl⟩ | ⟨hk, n, cs, md, hm, hi⟩
  · exact ht'.2.2.resolve_left h0
  · obtain ⟨x, hx⟩ := holds_chunk hd' (C81.mem_chunks.mpr ⟨n, cs, md, hm, hi⟩)
    rcases hold _ hx with h1 | h1
    · rw [← h.third.sound.has_one h1 (h.grown'.has hb) rfl]
      exact hx
    · cases congrArg Blob.kind h1

/-- A backup that a prune has lost is brought back by rebuild-index, if what it took over from before the prune read the
indexes was in use. -/
theorem lost_brought_back_partial (h : InPieces C env ids R₁ R₂ w src snaps) (hN : PruneNoClash ids cores w plan)
    (hp : prunePlan C env w src snaps false = .ok (some plan))
    (hf : Finished (liveCfg ids cores plan.start) w plan.main plan.posts w') (hv : v.repo = w'.repo)
    (hnew : C28.NewName ids v.repo) (hr : Rebuild.Finished ids true v v') {i : Id} {sn : Snapshot Id}
    (hsn : (i, sn) ∈ w.repo.snapshots)
    (hu : ∀ b, Uses C w.repo sn.tree b → Has C R₁ b → ∃ j s, (j, s) ∈ R₂.snapshots ∧ Uses C R₂ s.tree b) :
    (i, sn) ∈ v'.repo.snapshots ∧ ∀ d, Holds C w.repo sn.tree d → Holds C v'.repo sn.tree d := by
  have hi := instant_of_finished hf
  obtain ⟨c, reach, h'⟩ := h.piecemeal hN hp
  have hn := h'.instant h hi
  have hps : BMap.Sorted v.repo.packs := by rw [hv]; exact hn.sound.packs_sorted
  have hxs : BMap.Sorted v.repo.indexes := by rw [hv]; exact hn.sound.indexes_sorted
  constructor
  · rw [(C28.finished_repo hps hxs hnew hr).1]
    show _ ∈ v.repo.snapshots
    rw [hv, hn.snaps]
    exact hsn
  · intro d hd
    refine brings_back hps hxs hnew hr hd fun b hb => ?_
    rw [hv]
    by_cases hb1 : Has C R₁ b
    · obtain ⟨j, s, h1, h2⟩ := hu b hb hb1
      exact InPacks.of_has (used_kept h hN hp hf h1 h2)
    · obtain ⟨h1, q, bs, h2, h3, h4⟩ := hb.1
      refine ⟨h1, q, bs, C84.unread_packs_stay h hN hp hi h3 (fun m hl => hb1 ?_), h4⟩
      obtain ⟨bs', h5, h6⟩ := h.first.present q m hl
      have h7 := (h.grown.trans h.grown').packs _ h5
      have h8 : bs' = bs := Option.some.inj (((BMap.get?_eq_some_iff h.third.packs_sorted).mpr h7).symm.trans
        ((BMap.get?_eq_some_iff h.third.packs_sorted).mpr h3))
      subst h8
      subst h6
      exact ⟨h1, q, bs', hl, h5, h4⟩

end Pieces

/-! ## A blob in two packs -/

/-- What every command begins with that stores or removes packs or indexes, but for rebuild-index: the indexes are read,
and what they list is gathered by blob (`index::build_master_index`, then `blob_to_pack_map` or `blob_id_set`). -/
def GetsIn (R : Repo Id) : Prop :=
  ∃ files : List (Id × Index Id), files.Perm R.indexes ∧ ∃ x, Index.buildMaster (files.map fun e => (e.1, .ok e.2)) = .ok x ∧
    ((∃ t, Index.blobToPack x = .ok t) ∨ ∃ t, Index.blobIds x = .ok t)

/-- A blob that is in two packs, both listed. -/
structure Twice (R : Repo Id) (p p' : Id) (bs bs' : Pack Id) (b b' : Blob Id) : Prop where
  ne : p ≠ p'
  left : (p, bs) ∈ R.packs
  right : (p', bs') ∈ R.packs
  leftListed : Listed R.indexes p (Pack.manifestOf bs)
  rightListed : Listed R.indexes p' (Pack.manifestOf bs')
  inLeft : b ∈ bs
  inRight : b' ∈ bs'
  same : b.id = b'.id

/-- One command after another: one that has to get in first, and does whatever it likes then; snapshots are forgotten
or stored; the index is rebuilt, or would be, to its end or not. -/
inductive Did (ids : Ids Id) : World Id → World Id → Prop
  | inside {w w'} : GetsIn w.repo → Did ids w w'
  | snapshots {w : World Id} {snapshots cwd} : Did ids w ⟨{ w.repo with snapshots := snapshots }, cwd⟩
  | rebuild {w w' live} : C28.NewName ids w.repo → Rebuild.Instant ids live w w' → Did ids w w'

theorem shut_of_twice {R : Repo Id} {p p' : Id} {bs bs' : Pack Id} {b b' : Blob Id} (h : Twice R p p' bs bs' b b')
    (hx : BMap.Sorted R.indexes) (hl : ∀ q m m', Listed R.indexes q m → Listed R.indexes q m' → m = m') : ¬ GetsIn R := by
  rintro ⟨files, hperm, x, hm, hr⟩
  have hn : (blobsListed x.packs).Nodup := by
    rcases hr with hr | hr
    · exact (C18.refused_iff x).1.mp hr
    · exact (C18.refused_iff x).2.1.mp hr
  have hex := C17.packs_exact files (((hperm.map Prod.fst).nodup_iff).mpr hx.nodup) x hm
    (fun q m m' h1 h2 => hl q m m' ((listed_perm hperm q m).mp h1) ((listed_perm hperm q m').mp h2))
  have h1 := BMap.mem_of_get? ((hex _ _).mpr ((listed_perm hperm _ _).mpr h.leftListed))
  have h2 := BMap.mem_of_get? ((hex _ _).mpr ((listed_perm hperm _ _).mpr h.rightListed))
  obtain ⟨t, ht⟩ := (C18.refused_iff x).1.mpr hn
  have g1 := (C18.lookup_iff x t ht b.id p).mpr ⟨_, _, h1, List.mem_map.mpr ⟨b, h.inLeft, rfl⟩, rfl⟩
  have g2 := (C18.lookup_iff x t ht b.id p').mpr ⟨_, _, h2, List.mem_map.mpr ⟨b', h.inRight, rfl⟩, h.same.symm⟩
  rw [g1] at g2
  exact h.ne (Option.some.inj g2)

/-- The indexes do not contradict one another. -/
def Agree (R : Repo Id) : Prop := ∀ q m m', Listed R.indexes q m → Listed R.indexes q m' → m = m'

theorem sorted_erased (gone : List Id) {m : BMap Id (Index Id)} (h : BMap.Sorted m) :
    BMap.Sorted (gone.foldl (fun m i => BMap.erase i m) m) := by
  induction gone generalizing m with
  | nil => exact h
  | cons i gone ih => exact ih (BMap.sorted_erase h i)

theorem agree_of_packs {R : Repo Id} (hp : BMap.Sorted R.packs)
    (h : ∀ p m, Listed R.indexes p m ↔ ∃ bs, (p, bs) ∈ R.packs ∧ m = Pack.manifestOf bs) : Agree R := by
  intro q m m' h1 h2
  obtain ⟨bs, h3, rfl⟩ := (h _ _).mp h1
  obtain ⟨bs', h4, rfl⟩ := (h _ _).mp h2
  rw [Option.some.inj (((BMap.get?_eq_some_iff hp).mpr h3).symm.trans ((BMap.get?_eq_some_iff hp).mpr h4))]

/-- Once a blob is listed in two packs, no command that has to read the indexes gets in, and whatever commands are run,
that stays so: both packs stay, and stay listed. -/
theorem shut_for_ever {w w' : World Id} {p p' : Id} {bs bs' : Pack Id} {b b' : Blob Id}
    (h : Twice w.repo p p' bs bs' b b') (hp : BMap.Sorted w.repo.packs) (hx : BMap.Sorted w.repo.indexes)
    (ha : Agree w.repo) (hd : Relation.ReflTransGen (Did ids) w w') :
    ¬ GetsIn w'.repo ∧ (∀ src, ¬ Opens w'.repo src) ∧ w'.repo.packs = w.repo.packs ∧ Twice w'.repo p p' bs bs' b b' := by
  have key : Twice w'.repo p p' bs bs' b b' ∧ BMap.Sorted w'.repo.indexes ∧ Agree w'.repo ∧ w'.repo.packs = w.repo.packs := by
    induction hd with
    | refl => exact ⟨h, hx, ha, rfl⟩
    | @tail u v _ hs ih =>
      obtain ⟨h1, h2, h3, h4⟩ := ih
      cases hs with
      | inside hg => exact absurd hg (shut_of_twice h1 h2 h3)
      | snapshots => exact ⟨⟨h1.ne, h1.left, h1.right, h1.leftListed, h1.rightListed, h1.inLeft, h1.inRight, h1.same⟩, h2, h3, h4⟩
      | rebuild hnew hi =>
        have hp' : BMap.Sorted u.repo.packs := by rw [h4]; exact hp
        obtain ⟨ho, _⟩ := C28.onDisk hp' hnew hi
        generalize v.repo = R' at ho ⊢
        cases ho with
        | same => exact ⟨h1, h2, h3, h4⟩
        | put gone hg =>
          have hl := C28.listed_put h2 hnew gone hg
          exact ⟨⟨h1.ne, h1.left, h1.right, (hl _ _).mpr ⟨bs, h1.left, rfl⟩, (hl _ _).mpr ⟨bs', h1.right, rfl⟩, h1.inLeft,
            h1.inRight, h1.same⟩, sorted_erased gone (BMap.sorted_insert h2 _ _),
            agree_of_packs (R := ⟨u.repo.packs, _, u.repo.snapshots⟩) hp' hl, h4⟩
  obtain ⟨h1, h2, h3, h4⟩ := key
  have hn := shut_of_twice h1 h2 h3
  refine ⟨hn, ?_, h4, h1⟩
  rintro src ho
  obtain ⟨files, hperm, hm⟩ := ho.master
  exact hn ⟨files, hperm, _, hm, .inl ⟨_, ho.blobMap⟩⟩

/-- If two packs have a blob in common and not both are listed, rebuild-index is what shuts it. -/
theorem rebuild_shuts {w w' w'' : World Id} {p p' : Id} {bs bs' : Pack Id} {b b' : Blob Id} (hp : BMap.Sorted w.repo.packs)
    (hx : BMap.Sorted w.repo.indexes) (hnew : C28.NewName ids w.repo) (h : Rebuild.Finished ids true w w')
    (hne : p ≠ p') (h1 : (p, bs) ∈ w.repo.packs) (h2 : (p', bs') ∈ w.repo.packs) (hb : b ∈ bs) (hb' : b' ∈ bs')
    (he : b.id = b'.id) (hd : Relation.ReflTransGen (Did ids) w' w'') : ¬ GetsIn w''.repo := by
  obtain ⟨g1, _, g2⟩ := C28.all_listed w w' hp hx hnew h
  have hr := (C28.finished_repo hp hx hnew h).1
  have hx' : BMap.Sorted w'.repo.indexes := by
    rw [hr]
    simp [BMap.Sorted, BMap.keys]
  refine (shut_for_ever (p := p) (p' := p') (bs := bs) (bs' := bs') (b := b) (b' := b')
    ⟨hne, by rw [g1]; exact h1, by rw [g1]; exact h2, (g2 _ _).mpr ⟨bs, h1, rfl⟩, (g2 _ _).mpr ⟨bs', h2, rfl⟩, hb, hb', he⟩
    (by rw [g1]; exact hp) hx' (agree_of_packs (by rw [g1]; exact hp) (fun q m => ?_)) hd).1
  rw [g1]
  exact g2 q m

/-- The way out is by hand: when packs are removed whose blobs are all in others, so that none is left in two, then after
rebuild-index everything that was in packs is found, and the repository can be opened. -/
theorem by_hand {w v v' : World Id} (hp : BMap.Sorted v.repo.packs) (hx : BMap.Sorted v.repo.indexes)
    (hnew : C28.NewName ids v.repo) (h : Rebuild.Finished ids true v v')
    (hall : ∀ b, InPacks C w.repo b → InPacks C v.repo b)
    (honce : (v.repo.packs.flatMap (fun e => e.2.map Blob.id)).Nodup) :
    (∃ src, Opens v'.repo src) ∧ ∀ root d, Holds C w.repo root d → Holds C v'.repo root d :=
  ⟨(C28.usable_iff v v' hp hx hnew h).mpr honce, fun _ _ hd =>
    has_mono_holds (fun b hb => (found_iff hp hx hnew h b).mpr (hall b (.of_has hb))) hd⟩

/-! ## Examples -/

theorem can_rebuild {ids : Ids Id} (R : Repo Id) (cwd : Cwd Id) (hp : BMap.Sorted R.packs) (hne : R.packs ≠ []) :
    ∃ w', Rebuild.Finished ids true ⟨R, cwd⟩ w' := by
  obtain ⟨t, x, h1, h2⟩ := C28.finishes (ids := ids) (live := true) ⟨R, cwd⟩ hp (.inl hne) (Rebuild.init _) .refl
  exact ⟨_, .mk t x h1 h2⟩

/-- The new index has an ID of its own. -/
def newName (ids : Ids ObjectId) (R : Repo ObjectId) : Bool :=
  decide (ids.indexId (C28.whole R) ∉ BMap.keys R.indexes) &&
    R.indexes.all fun e => decide (ids.indexId (C28.whole R) ∉ e.2.supersedes)

theorem newName_sound {ids : Ids ObjectId} {R : Repo ObjectId} (h : newName ids R = true) : C28.NewName ids R := by
  simp only [newName, Bool.and_eq_true, List.all_eq_true, decide_eq_true_eq] at h
  exact ⟨h.1, fun ⟨j, y, h1, h2⟩ => h.2 _ h1 h2⟩

/-- A repository whose indexes are all gone. -/
def bare : Repo ObjectId := ⟨Demo.repoAB.packs, [], Demo.repoAB.snapshots⟩

theorem bare_packs : bare.packs ≠ [] ∧ (bare.packs.flatMap (fun e => e.2.map Blob.id)).Nodup := by decide +kernel

theorem bare_snap : Demo.snapA.tree ≠ Demo.codec.emptyId ∧
    (Demo.pruneIds.snapId Demo.snapA, Demo.snapA) ∈ Demo.repoAB.snapshots := by decide +kernel

theorem bare_sorted : BMap.Sorted bare.packs := by
  unfold BMap.Sorted
  decide +kernel

theorem bare_kept : ∀ e ∈ Demo.repoAB.packs, e ∈ bare.packs := by decide +kernel

theorem bare_new : C28.NewName Demo.pruneIds bare := newName_sound (by decide +kernel)

/-- Rebuild-index finishes, and the snapshots are as they were. -/
example : ∃ w', Rebuild.Finished Demo.pruneIds true (Demo.clean bare) w' ∧ ¬ Readable Demo.codec bare Demo.snapA ∧
    Readable Demo.codec w'.repo Demo.snapA ∧ ∃ src, Opens w'.repo src := by
  have hp := bare_sorted
  obtain ⟨w', h⟩ := can_rebuild (ids := Demo.pruneIds) bare ⟨none, [], []⟩ hp bare_packs.1
  refine ⟨w', h, ?_, ?_, (C28.usable_iff (Demo.clean bare) w' hp BMap.sorted_nil bare_new h).mpr bare_packs.2⟩
  · rintro ⟨d, t, ⟨_, ht, hh⟩, _⟩
    rcases hh with rfl | ⟨_, p, bs, ⟨i, y, ⟨h1, _⟩, _⟩, _⟩
    · exact bare_snap.1 ht.symm
    · cases h1
  · obtain ⟨d, hd⟩ := Demo.healthyAB.readable (Demo.pruneIds.snapId Demo.snapA) Demo.snapA bare_snap.2
    exact ⟨d, indexes_expendable (w := Demo.clean bare) hp BMap.sorted_nil bare_new h bare_kept hd⟩

def treeN : Blob ObjectId := Demo.treeBlob (Demo.oneFile [98] ⟨[7, 8], Demo.hash [7, 8], .chunk⟩)

theorem lost_parts : (∀ e ∈ C84.repoB.snapshots, e ∉ C83.repo0.snapshots →
      e.2.tree = treeN.id ∧ treeN ∈ Check.blobs C84.repoB ∧ Demo.hash treeN.data = treeN.id) ∧
    (∀ b ∈ Check.blobs C83.repo0, b.id ≠ treeN.id ∧ b.id ≠ Demo.hash [7, 8]) := by decide +kernel

theorem new84 : C28.NewName C27.fullIds C84.repoP := newName_sound (by decide +kernel)

/-- The backup that the prune of C84 has lost is back once the indexes have been rebuilt, and the repository can be
opened. -/
example : ∃ e ∈ C84.repoB.snapshots, ¬ Readable Demo.codec C84.repoP e.2 ∧
    ∃ v', Rebuild.Finished C27.fullIds true (Demo.clean C84.repoP) v' ∧ e ∈ v'.repo.snapshots ∧
      Readable Demo.codec v'.repo e.2 ∧ ∃ src, Opens v'.repo src := by
  obtain ⟨e, h1, h0, _, h3, h4, h5⟩ := C84.snapsB
  have hf : Finished (liveCfg C27.fullIds 4 C84.planP.start) (Demo.clean C84.repoB) C84.planP.main C84.planP.posts
      (Demo.clean C84.repoP) := by unfold C84.repoP; exact C27.ends C84.canP
  have hps : BMap.Sorted C84.repoP.packs := by unfold BMap.Sorted; decide +kernel
  have hxs : BMap.Sorted C84.repoP.indexes := by unfold BMap.Sorted; decide +kernel
  obtain ⟨v', hv⟩ := can_rebuild (ids := C27.fullIds) C84.repoP ⟨none, [], []⟩ hps (by decide +kernel)
  obtain ⟨d, hd⟩ := C84.healthyB.readable _ _ h1
  obtain ⟨l1, l2⟩ := lost_parts
  obtain ⟨g1, g2, g3⟩ := l1 e h1 h0
  have htree : TreeAt Demo.codec C84.repoB e.2.tree (Demo.oneFile [98] ⟨[7, 8], Demo.hash [7, 8], .chunk⟩) := by
    rw [g1]
    exact ⟨Check.okTree_sound (by decide +kernel), g3, .inr (Check.has_iff.mpr ⟨g3, g2⟩)⟩
  have hreach : ∀ u, Reaches (TreeAt Demo.codec C84.repoB) e.2.tree u → u = e.2.tree := by
    intro u hr
    cases hr with
    | refl => rfl
    | step a b _ =>
      cases C84.healthyB.sound.treeAt_one a htree
      simp [Demo.oneFile] at b
  have hb := lost_brought_back_partial C84.pieces C84.noClash C84.planP_eq hf (v := Demo.clean C84.repoP) rfl new84 hv h1 (by
    rintro b ⟨_, u, t, hr, ht, hc⟩ hb0
    exfalso
    have hm := l2 b (Check.has_iff.mp hb0).2
    cases hreach u hr
    cases C84.healthyB.sound.treeAt_one ht htree
    rcases hc with ⟨_, rfl⟩ | ⟨_, n, cs, md, h6, h7⟩
    · exact hm.1 g1
    · simp [Demo.oneFile] at h6
      obtain ⟨_, rfl, _⟩ := h6
      exact hm.2 (List.mem_singleton.mp h7))
  refine ⟨e, h1, ?_, v', hv, hb.1, ⟨d, hb.2 d hd⟩, ?_⟩
  · rintro ⟨d, t, ⟨_, ht, hh⟩, _⟩
    rcases hh with rfl | hh
    · exact h4 ht.symm
    · exact h5 _ (Check.has_iff.mp hh).2 rfl
  · exact (C28.usable_iff (Demo.clean C84.repoP) v' hps hxs new84 hv).mpr (by decide +kernel)

/-! What two prunes at the same time leave (C83) -/

theorem packs2 : BMap.Sorted C83.repo2.packs := by
  unfold BMap.Sorted
  decide +kernel

theorem twice2 : ∃ e ∈ C83.repo2.packs, ∃ e' ∈ C83.repo2.packs, e.1 ≠ e'.1 ∧ (∃ b ∈ e.2, ∃ b' ∈ e'.2, b.id = b'.id) ∧
    (∃ f ∈ C83.repo2.indexes, (e.1, Pack.manifestOf e.2) ∈ f.2.packs) ∧
    ∃ f ∈ C83.repo2.indexes, (e'.1, Pack.manifestOf e'.2) ∈ f.2.packs := by decide +kernel

/-- Two prunes of a repository in good order, at the same time, without any error, can leave it so that no command can
ever use it again. -/
theorem prunes_shut_for_ever : ∃ (m : Shared Bool ObjectId), Healthy Demo.codec C27.fullIds C83.repo0 ∧
    Shared.Reachable C83.Can C83.repo0 m ∧
    ∀ w w' : World ObjectId, w.repo = m.repo → Relation.ReflTransGen (Did C27.fullIds) w w' →
      ¬ GetsIn w'.repo ∧ ∀ src, ¬ Opens w'.repo src := by
  obtain ⟨m, _, _, h1, _, _, _, _, _, _, _, h2⟩ := C83.run0
  refine ⟨m, C83.healthy0, h1, fun w w' hw hd => ?_⟩
  rw [h2] at hw
  obtain ⟨t1, t2, _⟩ := C83.twice0
  have hlive : ∀ f ∈ C83.repo2.indexes, ∀ e ∈ f.2.packs, Listed C83.repo2.indexes e.1 e.2 := by
    rintro f hf e he
    exact ⟨f.1, f.2, ⟨hf, fun ⟨j, y, h3, h4⟩ => t1 f hf _ h3 h4⟩, he⟩
  obtain ⟨⟨p, bs⟩, a1, ⟨p', bs'⟩, a2, a3, ⟨b, a4, b', a5, a6⟩, ⟨f, a7, a8⟩, ⟨f', a9, a10⟩⟩ := twice2
  have h := shut_for_ever (ids := C27.fullIds) (w := w) (w' := w') (p := p) (p' := p') (bs := bs) (bs' := bs') (b := b)
    (b' := b') (by rw [hw]; exact ⟨a3, a1, a2, hlive f a7 _ a8, hlive f' a9 _ a10, a4, a5, a6⟩) (by rw [hw]; exact packs2)
    (by rw [hw]; exact C83.sorted2) (by
      rw [hw]
      rintro q m m' ⟨i, x, ⟨h3, _⟩, h4⟩ ⟨i', x', ⟨h5, _⟩, h6⟩
      exact t2 _ h3 _ h5 _ h4 _ h6 rfl) hd
  exact ⟨h.1, h.2.1⟩

/-- The same without the packs of the second prune that hold what others hold. -/
def mended : Repo ObjectId :=
  { C83.repo2 with packs := C83.repo2.packs.filter fun e => decide (e.2.length ≠ 1 ∨ ∀ b ∈ e.2, b.kind = .tree) }

theorem mended_packs : mended.packs ≠ [] ∧ mended.packs.length + 2 = C83.repo2.packs.length ∧
    (mended.packs.flatMap (fun e => e.2.map Blob.id)).Nodup ∧
    ∀ e ∈ C83.repo2.packs, ∀ b ∈ e.2, ∃ e' ∈ mended.packs, b ∈ e'.2 := by decide +kernel

theorem mended_new : C28.NewName C27.fullIds mended := newName_sound (by decide +kernel)

/-- Removing them by hand and rebuilding the index mends it. -/
example : ∃ v', Rebuild.Finished C27.fullIds true (Demo.clean mended) v' ∧ (∃ src, Opens v'.repo src) ∧
    ∀ root d, Holds Demo.codec C83.repo2 root d → Holds Demo.codec v'.repo root d := by
  obtain ⟨h1, _, h2, h3⟩ := mended_packs
  have hp : BMap.Sorted mended.packs := by unfold BMap.Sorted; decide +kernel
  obtain ⟨v', hv⟩ := can_rebuild (ids := C27.fullIds) mended ⟨none, [], []⟩ hp h1
  refine ⟨v', hv, by_hand (w := Demo.clean C83.repo2) (v := Demo.clean mended) hp C83.sorted2 mended_new hv ?_ h2⟩
  rintro b ⟨g1, p, bs, g2, g3⟩
  obtain ⟨⟨p', bs'⟩, g4, g5⟩ := h3 _ g2 b g3
  exact ⟨g1, p', bs', g4, g5⟩

end Backpak.C86
