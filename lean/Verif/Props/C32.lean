import Verif.Lemmas.DemoStore

/-!
# C32. A clean check means every snapshot is readable

The files of the repository can be anything: soundness has no hypothesis about them but that `check`
succeeds.
-/

namespace Backpak.C32

open Spec Check

variable {Z : Zstd} {H : Bytes → ObjectId} {O : Serde.OldTime}

/-- What a successful check has done. -/
theorem did {b : Bool} {S : Stored} (h : check Z H O b S = .ok ()) : ∃ ix bm cs,
    openIndex Z H S = .ok ix ∧ Index.blobToPack ix = .ok bm ∧
    chunksOf H O ⟨ix, bm, openPack Z S⟩ S.snapshots (newTreeCache (Codec.real H)) = .ok cs ∧
    (∀ c ∈ cs, c ∈ BMap.keys bm) ∧
    (∀ e ∈ ix.packs, b = true → checkPack Z H S e.1 e.2 = .ok ()) ∧
    (∀ e ∈ ix.packs, b = false → probePack (listPacks S) e.1 = .ok ()) := by
  unfold check at h
  split at h
  · simp at h
  · rename_i ix hi
    dsimp only at h
    split at h
    · simp at h
    · rename_i bm hb
      split at h
      · simp at h
      · rename_i cs hcs
        generalize hbad : (if b = true then ix.packs.filter (fun e => (checkPack Z H S e.1 e.2).toBool = false)
          else ix.packs.filter (fun e => (probePack (listPacks S) e.1).toBool = false)) = bad at h
        split at h
        · rename_i hc
          obtain ⟨h1, h2⟩ := hc
          rw [h1] at hbad
          clear h1
          have h1 := hbad
          refine ⟨ix, bm, cs, hi, hb, hcs, h2, ?_, ?_⟩
          · rintro e he rfl
            rw [if_pos rfl, List.filter_eq_nil_iff] at h1
            have := h1 e he
            simp only [decide_eq_true_eq, Bool.not_eq_false] at this
            cases hr : checkPack Z H S e.1 e.2 with
            | ok _ => rfl
            | error _ => rw [hr] at this; simp [Except.toBool] at this
          · rintro e he rfl
            rw [if_neg (by simp), List.filter_eq_nil_iff] at h1
            have := h1 e he
            simp only [decide_eq_true_eq, Bool.not_eq_false] at this
            cases hr : probePack (listPacks S) e.1 with
            | ok _ => rfl
            | error _ => rw [hr] at this; simp [Except.toBool] at this
        · simp at h

theorem checkPack_ok {S : Stored} {p : ObjectId} {m : Manifest ObjectId} (h : checkPack Z H S p m = .ok ()) :
    ∃ f, (p, f) ∈ S.packs ∧ getFile S.packs p = .ok f ∧ Pack.verify Z H f m = .ok () := by
  unfold checkPack at h
  split at h
  · simp at h
  · rename_i f hf
    exact ⟨f, Intact.getFile_ok hf, hf, h⟩

theorem forall₂_infix {m : Manifest ObjectId} {ps : List Bytes}
    (h : List.Forall₂ (fun e p => H p = e.id) m ps) {e : Entry ObjectId} (he : e ∈ m) :
    ∃ p, H p = e.id ∧ p <:+: ps.flatten := by
  induction h with
  | nil => cases he
  | cons h1 _ ih =>
    rcases List.mem_cons.mp he with rfl | he
    · exact ⟨_, h1, by rw [List.flatten_cons]; exact (List.prefix_append _ _).isInfix⟩
    · obtain ⟨p, h2, h3⟩ := ih he
      exact ⟨p, h2, by rw [List.flatten_cons]; exact h3.trans (List.suffix_append _ _).isInfix⟩

/-- After a clean `check --read-packs`, every snapshot file holds a snapshot under its own hash; its
tree, all trees below it and all chunks of all its files are in packs that live indexes list, as bytes
that hash to their IDs; and no directory is below itself (`Whole` is well-founded). -/
theorem clean_sound_partial {S : Stored} (h : check Z H O true S = .ok ()) : ∀ e ∈ S.snapshots,
    ∃ s, SnapshotIs H O e.1 e.2 s ∧ Whole Z H (fun c => ∃ x, Found Z H S c x) S s.tree := by
  obtain ⟨ix, bm, cs, hi, hb, hcs, h1, h2, _⟩ := did h
  refine Intact.chunksOf_sound hi hb _ _ Intact.newTreeCache_good cs hcs _ (fun c hc => ?_)
  obtain ⟨p, hp⟩ := BMap.mem_keys_iff.mp (h1 c hc)
  obtain ⟨m, e, hm, he, hid⟩ := (C18.lookup_iff ix bm hb c p).mp hp
  obtain ⟨f, hf, _, hv⟩ := checkPack_ok (h2 _ hm rfl)
  obtain ⟨rest, hr, ps, hps, h3⟩ := C07.verified_hashes Z H f m hv
  obtain ⟨x, hx, hin⟩ := forall₂_infix h3 he
  obtain ⟨files, hfi, hn, hma⟩ := Intact.openIndex_ok hi
  exact ⟨x, by rw [hx, hid], files, p, m, f, rest, hfi, C17.packs_sound files hn ix hma p m hm,
    ⟨e, he, hid⟩, hf, hr, hin.trans hps.isInfix⟩

/-- Without `--read-packs` the trees are checked just as much, but of the chunks only that live indexes
list them in packs of which a file is there. -/
theorem quick_sound {S : Stored} (h : check Z H O false S = .ok ()) : ∀ e ∈ S.snapshots,
    ∃ s, SnapshotIs H O e.1 e.2 s ∧ Whole Z H (Placed Z H S) S s.tree := by
  obtain ⟨ix, bm, cs, hi, hb, hcs, h1, _, h2⟩ := did h
  refine Intact.chunksOf_sound hi hb _ _ Intact.newTreeCache_good cs hcs _ (fun c hc => ?_)
  obtain ⟨p, hp⟩ := BMap.mem_keys_iff.mp (h1 c hc)
  obtain ⟨m, e, hm, he, hid⟩ := (C18.lookup_iff ix bm hb c p).mp hp
  have hpr := h2 _ hm rfl
  have hin : Shelf.pack.dir ++ objectName .pack p ∈ (listPacks S).map Prod.fst := by
    by_contra hno
    unfold probePack at hpr
    have he : ascii "packs/" ++ (p.display ++ ascii ".pack") = Shelf.pack.dir ++ objectName .pack p := rfl
    dsimp only at hpr
    rw [he, List.filter_eq_nil_iff.mpr] at hpr
    · simp at hpr
    · intro a ha heq
      simp only [decide_eq_true_eq] at heq
      exact hno (heq ▸ ha)
  simp only [listPacks, List.map_map, List.mem_map, Function.comp_apply] at hin
  obtain ⟨⟨q, f⟩, hf, heq⟩ := hin
  have : q = p := (C50.names_apart (List.append_cancel_left heq)).2
  subst this
  obtain ⟨files, hfi, hn, hma⟩ := Intact.openIndex_ok hi
  exact ⟨files, q, m, f, hfi, C17.packs_sound files hn ix hma q m hm, ⟨e, he, hid⟩, hf⟩

/-- After a clean `check --read-packs`, `cat` can extract every blob that a live index lists, and gets bytes
that hash to its ID. -/
theorem clean_extracts {S : Stored} (h : check Z H O true S = .ok ()) : ∃ ix, openIndex Z H S = .ok ix ∧
    ∀ p m, (p, m) ∈ ix.packs → ∃ f, getFile S.packs p = .ok f ∧
      ∀ e ∈ m, ∃ e' x, Pack.extractBlob Z H f e.id m = .ok (e', x) ∧ H x = e.id := by
  obtain ⟨ix, bm, cs, hi, hb, hcs, h1, h2, _⟩ := did h
  refine ⟨ix, hi, fun p m hm => ?_⟩
  obtain ⟨f, hf, hg, hv⟩ := checkPack_ok (h2 _ hm rfl)
  exact ⟨f, hg, fun e he => C07.verified_extracts Z H f m hv e he⟩

/-- Chunks of a verified pack that has nothing but chunks are all loaded. -/
theorem loadLoop_verified (m : Manifest ObjectId) (s : Stream) (hk : ∀ e ∈ m, e.kind = .chunk)
    (h : Pack.verifyBlobs H m s = .ok ()) :
    ∃ l n, Pack.loadLoop H m s = .ok (l, n) ∧ l.map Prod.fst = m.map Entry.id := by
  induction m generalizing s with
  | nil => exact ⟨[], 0, rfl, rfl⟩
  | cons e m ih =>
    unfold Pack.verifyBlobs at h
    split at h
    · simp at h
    · rename_i bs s' ht
      split at h
      · rename_i he
        obtain ⟨l, n, h1, h2⟩ := ih s' (fun e he => hk e (List.mem_cons_of_mem _ he)) h
        refine ⟨(e.id, bs) :: l, e.length + n, ?_, by simp [h2]⟩
        unfold Pack.loadLoop
        rw [if_neg (not_not.mpr (hk e List.mem_cons_self)), ht]
        simp only [if_pos he, h1]
      · simp at h

/-- After a clean `check --read-packs`, the packs that hold nothing but chunks can be loaded for reading
files: every chunk gets bytes that hash to its ID. -/
theorem clean_loads {S : Stored} (h : check Z H O true S = .ok ()) : ∃ ix, openIndex Z H S = .ok ix ∧
    ∀ p m, (p, m) ∈ ix.packs → (∀ e ∈ m, e.kind = .chunk) → ∃ f l n, getFile S.packs p = .ok f ∧
      Pack.loadPack Z H f m = .ok (l, n) ∧ l.map Prod.fst = m.map Entry.id ∧ ∀ c ∈ l, H c.2 = c.1 := by
  obtain ⟨ix, bm, cs, hi, hb, hcs, h1, h2, _⟩ := did h
  refine ⟨ix, hi, fun p m hm hk => ?_⟩
  obtain ⟨f, hf, hg, hv⟩ := checkPack_ok (h2 _ hm rfl)
  unfold Pack.verify at hv
  split at hv
  · simp at hv
  · rename_i rest hr
    split at hv
    · simp at hv
    · rename_i hvb
      obtain ⟨l, n, h3, h4⟩ := loadLoop_verified m _ hk hvb
      have h5 : Pack.loadPack Z H f m = .ok (l, n) := by unfold Pack.loadPack; rw [hr]; exact h3
      exact ⟨f, l, n, hg, h5, h4, fun c hc => (C07.load_pack_hashes Z H f m l n h5 c hc).1⟩

/-- The files of a repository in good order pass both kinds of check, in whatever order they are listed. -/
theorem complete {R : Repo ObjectId} {S : Stored} (hw : Written Z H R S)
    (hR : Healthy (Codec.real H) (Ids.real H) R) (b : Bool) : check Z H O b S = .ok () :=
  Written.check_written hw hR.sound hR.readable b

/-- Two snapshots, three packs, and an index; written out and checked. -/
example : check Toy.zstd Demo.hash (fun _ => none) true (Demo.store Demo.filesAB) = .ok () ∧
    check Toy.zstd Demo.hash (fun _ => none) false (Demo.store Demo.filesAB) = .ok () ∧
    (Demo.store Demo.filesAB).snapshots.length = 2 ∧ (Demo.store Demo.filesAB).packs.length = 3 :=
  ⟨complete Demo.written_filesAB Demo.healthy_filesAB true, complete Demo.written_filesAB Demo.healthy_filesAB false,
    by decide +kernel, by decide +kernel⟩

/-- `S` with the last byte of the blobs' part of one pack changed. -/
def damaged : Stored :=
  let S := Demo.store Demo.filesAB
  ⟨S.packs.map fun e => (e.1, if e.1 = Demo.realIds.packId (Pack.manifestOf [Demo.chunkA, Demo.chunkB]) then
    Pack.file (Toy.frame [1, 2, 3, 5]) (Toy.frame (Serde.encManifest (Pack.manifestOf [Demo.chunkA, Demo.chunkB])))
    else e.2), S.indexes, S.snapshots⟩

/-- One damaged chunk is found by reading the packs, and only so. -/
theorem damage_found : (check Toy.zstd Demo.hash (fun _ => none) true damaged).toBool = false ∧
    (check Toy.zstd Demo.hash (fun _ => none) false damaged).toBool = true := by
  constructor <;> decide +kernel

/-- What reading the file of `Demo.filesTwice` gives. -/
def readTwice : Res (Bytes × ReaderState ObjectId) :=
  match openIndex Toy.zstd Demo.hash (Demo.store Demo.filesTwice) with
  | .error e => .error e
  | .ok ix =>
    match Index.blobToPack ix with
    | .error e => .error e
    | .ok bm => readBlob Demo.hash ⟨ix, bm, openPack Toy.zstd (Demo.store Demo.filesTwice)⟩ Demo.env .new Demo.treeA.id

/-- The snapshot `C20.chunk_like_tree` speaks of passes the check, although reading its file panics: the
chunk is there only as a tree. Nothing `check` does looks at kinds. -/
theorem kinds_unchecked : (check Toy.zstd Demo.hash (fun _ => none) true (Demo.store Demo.filesTwice)).toBool = true ∧
    readTwice = .error (.panic "called `Option::unwrap()` on a `None` value") := by
  constructor
  · decide +kernel
  · have : ∀ r : Res (Bytes × ReaderState ObjectId), (match r with
        | .error (.panic t) => decide (t = "called `Option::unwrap()` on a `None` value")
        | _ => false) = true → r = .error (.panic "called `Option::unwrap()` on a `None` value") := by
      intro r h
      split at h
      · simp only [decide_eq_true_eq] at h
        rw [h]
      · cases h
    exact this _ (by decide +kernel)

/-- The repository `Demo.filesAB`, but one pack has been stored, and is listed, under a name which is not the hash
of its manifest. -/
def misnamed : Stored :=
  let name := fun m => if m = Pack.manifestOf [Demo.chunkA, Demo.chunkB] then Demo.hash [1] else Demo.realIds.packId m
  Demo.store (Demo.repoOf { Demo.realIds with packId := name }
    [[Demo.chunkA, Demo.chunkB], [Demo.treeA, Demo.treeB], [Demo.junk]] [Demo.snapA, Demo.snapB])

/-- A pack under a wrong name passes the check that reads packs, although loading its manifest fails, which
`rebuild-index` does with every pack there is and `cat pack` with the one asked for: `verify` throws the hash away
that it computes (`src/pack.rs:334`). -/
theorem names_unchecked : check Toy.zstd Demo.hash (fun _ => none) true misnamed = .ok () ∧
    ∃ f, getFile misnamed.packs (Demo.hash [1]) = .ok f ∧
      Pack.loadManifest Toy.zstd Demo.hash (Demo.hash [1]) f = .error (.err "Pack's manifest changed!") := by
  have h1 : ∀ r : Res Unit, r.toBool = true → r = .ok () := by
    intro r h
    cases r with
    | error e => cases h
    | ok u => rfl
  have h2 : ∀ r : Res (Manifest ObjectId), (match r with
      | .error (.err t) => decide (t = "Pack's manifest changed!")
      | _ => false) = true → r = .error (.err "Pack's manifest changed!") := by
    intro r h
    split at h
    · simp only [decide_eq_true_eq] at h
      rw [h]
    · cases h
  refine ⟨h1 _ (by decide +kernel), Pack.file (Toy.frame (Pack.contentOf [Demo.chunkA, Demo.chunkB]))
    (Toy.frame (Serde.encManifest (Pack.manifestOf [Demo.chunkA, Demo.chunkB]))), ?_, h2 _ (by decide +kernel)⟩
  have h3 : ∀ (r : Res Bytes) (f : Bytes), (match r with
      | .ok g => decide (g = f)
      | _ => false) = true → r = .ok f := by
    intro r f h
    split at h
    · simp only [decide_eq_true_eq] at h
      rw [h]
    · cases h
  exact h3 _ _ (by decide +kernel)

end Backpak.C32
