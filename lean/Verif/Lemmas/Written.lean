import Verif.Spec.Written
import Verif.Lemmas.Intact
import Verif.Lemmas.ReadBack
import Verif.Lemmas.Prune
import Verif.Props.C03
import Verif.Props.C05
import Mathlib.Data.List.Perm.Basic

/-!
# Opening the files of a repository
-/

namespace Backpak.Written

open Spec Check

variable {Z : Zstd} {H : Bytes → ObjectId} {O : Serde.OldTime} {R : Repo ObjectId} {S : Stored}

theorem forall₂_left {A B : Type} {r : A → B → Prop} {l : List A} {l' : List B}
    (h : List.Forall₂ r l l') {a : A} (ha : a ∈ l) : ∃ b ∈ l', r a b := by
  induction h with
  | nil => cases ha
  | cons h1 _ ih =>
    rcases List.mem_cons.mp ha with rfl | ha
    · exact ⟨_, by simp, h1⟩
    · obtain ⟨b, hb, h⟩ := ih ha
      exact ⟨b, List.mem_cons_of_mem _ hb, h⟩

theorem forall₂_right {A B : Type} {r : A → B → Prop} {l : List A} {l' : List B}
    (h : List.Forall₂ r l l') {b : B} (hb : b ∈ l') : ∃ a ∈ l, r a b := by
  obtain ⟨a, ha, h⟩ := forall₂_left h.flip hb
  exact ⟨a, ha, h⟩

theorem forall₂_keys {B V : Type} {r : ObjectId × B → ObjectId × V → Prop} (hr : ∀ a b, r a b → b.1 = a.1)
    {l : List (ObjectId × B)} {l' : List (ObjectId × V)} (h : List.Forall₂ r l l') :
    l'.map Prod.fst = l.map Prod.fst := by
  induction h with
  | nil => rfl
  | cons h1 _ ih => simp [hr _ _ h1, ih]

theorem getFile_of_mem {l : List (ObjectId × Bytes)} (hn : (l.map Prod.fst).Nodup) {id : ObjectId}
    {f : Bytes} (h : (id, f) ∈ l) : getFile l id = .ok f := by
  cases hg : getFile l id with
  | error e =>
    unfold getFile at hg
    split at hg
    · rename_i hf
      have := List.find?_eq_none.mp hf _ h
      simp at this
    · simp at hg
  | ok g =>
    have hm := Intact.getFile_ok hg
    have := List.inj_on_of_nodup_map hn hm h rfl
    simp only [Prod.mk.injEq, true_and] at this
    rw [this]

theorem getFile_absent {l : List (ObjectId × Bytes)} {id : ObjectId} (h : id ∉ l.map Prod.fst) :
    getFile l id = .error (.err "Couldn't open") := by
  unfold getFile
  split
  · rfl
  · rename_i e he
    have h1 := List.find?_some he
    simp only [decide_eq_true_eq] at h1
    exact absurd (List.mem_map.mpr ⟨e, List.mem_of_find?_eq_some he, h1⟩) h

theorem stored_packs_keys (hw : Written Z H R S) : (S.packs.map Prod.fst).Perm (BMap.keys R.packs) := by
  obtain ⟨l, h1, h2⟩ := hw.packs
  rw [BMap.keys, ← forall₂_keys (fun _ _ h => h.1) h2]
  exact (h1.map _).symm

theorem stored_packs_nodup (hw : Written Z H R S) (hs : BMap.Sorted R.packs) :
    (S.packs.map Prod.fst).Nodup := (stored_packs_keys hw).nodup_iff.mpr hs.nodup

/-- The file of a pack is found. -/
theorem getFile_pack (hw : Written Z H R S) (hs : BMap.Sorted R.packs) {p : ObjectId}
    {bs : List (Blob ObjectId)} (h : (p, bs) ∈ R.packs) :
    ∃ f, getFile S.packs p = .ok f ∧ Pack.WritesFile Z bs f ∧ bs.length < 2 ^ 64 ∧
      ∀ b ∈ bs, b.data.length < 2 ^ 32 := by
  obtain ⟨l, h1, h2⟩ := hw.packs
  obtain ⟨⟨q, f⟩, hf, h3, h4⟩ := forall₂_left h2 h
  refine ⟨f, getFile_of_mem (stored_packs_nodup hw hs) (h1.mem_iff.mp ?_), h4⟩
  dsimp only at h3
  rwa [← h3]

theorem openPack_written (hw : Written Z H R S) (hs : BMap.Sorted R.packs) {p : ObjectId}
    {bs : List (Blob ObjectId)} (h : (p, bs) ∈ R.packs) :
    ∃ s, openPack Z S p = .ok s ∧ Pack.contentOf bs <+: s.data := by
  obtain ⟨f, h1, ⟨zb, zm, h2, _, _, rfl⟩, _⟩ := getFile_pack hw hs h
  refine ⟨Z.stream (zb ++ (zm ++ Cbor.be 4 zm.length)), ?_, Z.stream_prefix _ _ _ h2⟩
  unfold openPack
  rw [h1]
  simp only [Pack.file, List.append_assoc, Pack.checkMagic_magic]

theorem loadIndex_written {e : ObjectId × Index ObjectId} {f : ObjectId × Bytes}
    (h : WrittenIndex Z H e f) : f.1 = e.1 ∧ loadIndex Z H f.1 f.2 = .ok e.2 := by
  obtain ⟨h1, h2, h3, z, h4, h5⟩ := h
  refine ⟨h1, ?_⟩
  have h9 : indexMagic.length = 9 := by decide
  have hd : f.2.drop 9 = z := by rw [h5]; exact List.drop_left' h9
  have ht : f.2.take 9 = indexMagic := by rw [h5]; exact List.take_left' h9
  have hlen : ¬ f.2.length < 9 := by
    have : (f.2.take 9).length = 9 := by rw [ht, h9]
    rw [List.length_take] at this
    omega
  unfold loadIndex
  rw [if_neg hlen, if_neg (by rw [ht]; exact not_not.mpr rfl), hd, Z.stream_whole _ _ h4]
  have hr := C03.index_round_trip e.2 h3 []
  rw [List.append_nil] at hr
  dsimp only
  rw [Stream.item_append (x := Serde.encIndex e.2) (rest := []) hr (by simp)]
  dsimp only
  rw [if_pos (by rw [h1, h2])]

theorem openIndex_written (hw : Written Z H R S) : ∃ files : List (ObjectId × Index ObjectId),
    files.Perm R.indexes ∧ openIndex Z H S = Index.buildMaster (files.map fun e => (e.1, .ok e.2)) := by
  obtain ⟨l, h1, h2⟩ := hw.indexes
  obtain ⟨files, hf, hp⟩ := List.perm_comp_forall₂ h1.symm h2.flip
  refine ⟨files, hp, ?_⟩
  unfold openIndex
  congr 1
  clear hp h1 h2
  generalize S.indexes = l' at hf
  induction hf with
  | nil => rfl
  | cons h _ ih =>
    obtain ⟨a, b⟩ := loadIndex_written h
    rw [List.map_cons, List.map_cons, ih, b, a]

/-- Opening the files of a repository is opening the repository. -/
theorem opens (hw : Written Z H R S) (hS : Sound (Codec.real H) R) : ∃ x bm,
    openIndex Z H S = .ok x ∧ Index.blobToPack x = .ok bm ∧ Opens R ⟨x, bm, openPack Z S⟩ := by
  obtain ⟨x, bm, h1, h2, h3⟩ := opens_with hS
  obtain ⟨files, hp, hx⟩ := openIndex_written hw
  have hn : (files.map Prod.fst).Nodup := (hp.map _).nodup_iff.mpr hS.indexes_sorted.nodup
  have h4 : Index.buildMaster (files.map fun e => (e.1, .ok e.2)) = .ok x := by
    rw [← h1]
    exact C17.order_irrelevant files R.indexes hn hp
  refine ⟨x, bm, by rw [hx, h4], h2, ⟨files, hp, h4⟩, h2, ?_, ?_⟩
  · exact fun p bs h => openPack_written hw hS.packs_sorted h
  · intro p hp
    refine ⟨"Couldn't open", ?_⟩
    show openPack Z S p = _
    unfold openPack
    rw [getFile_absent (fun h => hp ((stored_packs_keys hw).mem_iff.mp h))]

theorem loadSnapshot_written {e : ObjectId × Snapshot ObjectId} {f : ObjectId × Bytes}
    (h : WrittenSnapshot H e f) : loadSnapshot H O f.1 f.2 = .ok e.2 := by
  obtain ⟨h1, h2, h3, h4⟩ := h
  unfold loadSnapshot
  have hr := C05.snapshot_round_trip (O := O) e.2 h3 []
  rw [List.append_nil] at hr
  rw [h4, hr]
  have hd : (Serde.snapshotFile e.2).drop 9 = Serde.encSnapshot e.2 := by
    unfold Serde.snapshotFile
    exact List.drop_left' (by decide)
  dsimp only
  rw [hd, List.length_nil, Nat.sub_zero, List.take_length, if_pos (by rw [h1, h2])]

theorem chunksOf_written {src : Source ObjectId} (hS : Sound (Codec.real H) R) (ho : Opens R src)
    (l : List (ObjectId × Bytes)) (hl : ∀ f ∈ l, ∃ e ∈ R.snapshots, WrittenSnapshot H e f)
    (hr : ∀ i s, (i, s) ∈ R.snapshots → Readable (Codec.real H) R s) {cache : Forest ObjectId}
    (hc : CacheOk (Codec.real H) R cache) :
    ∃ cs, chunksOf H O src l cache = .ok cs ∧ ∀ c ∈ cs, c ∈ BMap.keys src.blobMap := by
  induction l generalizing cache with
  | nil => exact ⟨[], rfl, by simp⟩
  | cons f l ih =>
    obtain ⟨⟨i, s⟩, hm, he⟩ := hl f List.mem_cons_self
    obtain ⟨d, hd⟩ := hr i s hm
    obtain ⟨F, cache', h1, t, _, h2⟩ := holds_forest hS ho hd hc
    have hc' := (C23.appendTree_sound hS ho _ [] s.tree ([], cache) (F, cache') BMap.sorted_nil hc h1).2.1
    obtain ⟨cs, h3, h4⟩ := ih (fun f h => hl f (List.mem_cons_of_mem _ h)) hc'
    refine ⟨F.flatMap (fun e => chunksInTree e.2) ++ cs, ?_, ?_⟩
    · obtain ⟨j, g⟩ := f
      have := loadSnapshot_written (O := O) he
      dsimp only at this
      simp only [chunksOf, this, h1, h3]
    intro c hcm
    rcases List.mem_append.mp hcm with hcm | hcm
    · obtain ⟨⟨id, u⟩, hu, hcu⟩ := List.mem_flatMap.mp hcm
      have hFs := (C23.appendTree_sound hS ho _ [] s.tree ([], cache) (F, cache') BMap.sorted_nil hc h1).1
      have hx := (C23.forest_exact hS ho s.tree cache F cache' hc h1 id u).mp
        ((BMap.get?_eq_some_iff hFs).mpr hu)
      obtain ⟨_, d', u', hu', hd'⟩ := reaches_kept hS (fun b h => .inl h) hx.1 hd
      have := hS.treeAt_one hx.2 hu'
      subst this
      obtain ⟨x, hx⟩ := holds_chunk hd' hcu
      obtain ⟨p, _, _, hp, _⟩ := lookup_has hS ho hx
      exact BMap.mem_keys_iff.mpr ⟨p, hp⟩
    · exact h4 c hcm

theorem checkPack_written (hw : Written Z H R S) (hS : Sound (Codec.real H) R) {p : ObjectId}
    {m : Manifest ObjectId} (h : Listed R.indexes p m) : checkPack Z H S p m = .ok () := by
  obtain ⟨bs, hp, rfl⟩ := hS.present p m h
  obtain ⟨f, h1, h2, h3, h4⟩ := getFile_pack hw hS.packs_sorted hp
  have hm := Pack.manifestFromReader_written Z H h2 h3 h4
  obtain ⟨zb, zm, hz, _, _, rfl⟩ := h2
  unfold checkPack
  rw [h1]
  simp only [Pack.verify]
  have : Pack.checkMagic (Pack.file zb zm) = .ok (zb ++ (zm ++ Cbor.be 4 zm.length)) := by
    simp only [Pack.file, List.append_assoc, Pack.checkMagic_magic]
  rw [this]
  dsimp only
  rw [Pack.verifyBlobs_written H bs (fun b hb => (hS.hashes p bs b h hp hb).symm) _ (Z.stream_prefix _ _ _ hz), hm]
  simp

theorem probe_written (hw : Written Z H R S) (hS : Sound (Codec.real H) R) {p : ObjectId}
    {m : Manifest ObjectId} (h : Listed R.indexes p m) : probePack (listPacks S) p = .ok () := by
  obtain ⟨bs, hp, _⟩ := hS.present p m h
  have hn := stored_packs_nodup hw hS.packs_sorted
  have he : (listPacks S).map Prod.fst = (S.packs.map Prod.fst).map (fun i => Shelf.pack.dir ++ objectName .pack i) := by
    simp [listPacks, Function.comp_def]
  refine (C50.probe ?_ p).mpr ?_
  · rw [he]
    refine hn.map ?_
    intro a b hab
    exact (C50.names_apart (List.append_cancel_left hab)).2
  · rw [he]
    exact List.mem_map.mpr ⟨p, (stored_packs_keys hw).mem_iff.mpr (BMap.mem_keys_of_mem hp), rfl⟩

/-- The files of a sound repository whose snapshots can be read pass. -/
theorem check_written (hw : Written Z H R S) (hS : Sound (Codec.real H) R)
    (hr : ∀ i s, (i, s) ∈ R.snapshots → Readable (Codec.real H) R s) (b : Bool) :
    check Z H O b S = .ok () := by
  obtain ⟨x, bm, h1, h2, ho⟩ := opens hw hS
  obtain ⟨l, hp, hl⟩ := hw.snapshots
  obtain ⟨cs, h3, h4⟩ := chunksOf_written (O := O) hS ho S.snapshots
    (fun f hf => forall₂_right hl (hp.mem_iff.mpr hf)) hr newTreeCache_ok
  have hlist : ∀ e ∈ x.packs, Listed R.indexes e.1 e.2 := fun e he => (opens_mem hS ho e.1 e.2).mp he
  unfold check
  simp only [h1, h2, h3]
  rw [if_pos]
  refine ⟨?_, h4⟩
  cases b with
  | true =>
    rw [if_pos rfl, List.filter_eq_nil_iff]
    intro e he
    rw [checkPack_written hw hS (hlist e he)]
    simp [Except.toBool]
  | false =>
    rw [if_neg (by simp), List.filter_eq_nil_iff]
    intro e he
    rw [probe_written hw hS (hlist e he)]
    simp [Except.toBool]

end Backpak.Written
