import Verif.Model.Cat
import Verif.Lemmas.Pretty
import Verif.Lemmas.DemoStore
import Verif.Lemmas.Snapshots
import Verif.Props.C06
import Verif.Props.C07
import Verif.Props.C32
import Verif.Props.C36

/-!
# C64 - `cat` prints the object asked for, whole, or nothing
-/

namespace Backpak.C64

open Spec Check

variable {Z : Zstd} {H : Bytes → ObjectId} {O : Serde.OldTime} {T : Clock} {R : Repo ObjectId} {S : Stored}

/-- Text that is JSON for `j`: it reads as `j`, and no reader can go wrong over keys that are there twice. -/
structure IsJson (out : Bytes) (j : Json) : Prop where
  reads : Json.parse out = some j
  keys : Json.Distinct j

/-! ## Nothing is lost -/

/-- The text printed for a tree is JSON, and is printed for no other tree. -/
theorem tree_lossless (hT : Pretty.Exact T) {t : Tree ObjectId} (ht : BMap.Sorted t) :
    IsJson (Json.print (Pretty.tree T t)) (Pretty.tree T t) ∧
      ∀ t', Json.print (Pretty.tree T t') = Json.print (Pretty.tree T t) → t' = t :=
  ⟨⟨Json.parse_print _, Pretty.distinct_tree T ht⟩, fun _ h => Pretty.tree_inj hT (Json.print_inj h)⟩

/-- The text printed for a pack is JSON, and is printed for no other manifest. -/
theorem manifest_lossless (m : Manifest ObjectId) :
    IsJson (Json.print (Pretty.manifest m)) (Pretty.manifest m) ∧
      ∀ m', Json.print (Pretty.manifest m') = Json.print (Pretty.manifest m) → m' = m :=
  ⟨⟨Json.parse_print _, Pretty.distinct_manifest m⟩, fun _ h => Pretty.manifest_inj (Json.print_inj h)⟩

/-- The text printed for an index is JSON, and is printed for no other index. -/
theorem index_lossless {x : Index ObjectId} (hx : BMap.Sorted x.packs) :
    IsJson (Json.print (Pretty.index x)) (Pretty.index x) ∧
      ∀ x', Json.print (Pretty.index x') = Json.print (Pretty.index x) → x' = x :=
  ⟨⟨Json.parse_print _, Pretty.distinct_index hx⟩, fun _ h => Pretty.index_inj (Json.print_inj h)⟩

/-- The text printed for a snapshot is JSON, and is printed for no other snapshot. -/
theorem snapshot_lossless (hT : Pretty.Exact T) {s : Snapshot ObjectId} (hs : ∀ p ∈ s.paths, Serde.OkPath p) :
    IsJson (Json.print (Pretty.snapshot T s)) (Pretty.snapshot T s) ∧
      ∀ s', (∀ p ∈ s'.paths, Serde.OkPath p) →
        Json.print (Pretty.snapshot T s') = Json.print (Pretty.snapshot T s) → s' = s :=
  ⟨⟨Json.parse_print _, Pretty.distinct_snapshot T s⟩, fun _ h' h => Pretty.snapshot_inj hT h' hs (Json.print_inj h)⟩

/-! ## Nothing but what was asked for -/

/-- Whatever is in the repository: bytes printed for a blob hash to its ID, and a tree printed for a blob is read from
bytes that hash to its ID. -/
theorem blob_sound {id : ObjectId} {out : Bytes} (h : Cat.blob Z H T S id = .ok out) :
    H out = id ∨ ∃ bytes t rest, H bytes = id ∧ Serde.decTree bytes = some (t, rest) ∧
      out = Json.print (Pretty.tree T t) := by
  unfold Cat.blob at h
  split at h
  · cases h
  split at h
  · cases h
  split at h
  · cases h
  split at h
  · cases h
  split at h
  · cases h
  split at h
  · cases h
  rename_i e bytes hx
  obtain ⟨h1, _, _⟩ := C07.extract_hashes _ _ _ _ _ _ _ hx
  split at h
  · cases h
  split at h
  · simp only [Except.ok.injEq] at h
    exact .inl (h ▸ h1)
  · split at h
    · cases h
    · rename_i t rest hd
      simp only [Except.ok.injEq] at h
      exact .inr ⟨bytes, t, rest, h1, hd, h.symm⟩

/-- A manifest printed for a pack is read from bytes that hash to the pack's ID. -/
theorem pack_sound {id : ObjectId} {out : Bytes} (h : Cat.pack Z H S id = .ok out) :
    ∃ bytes m, H bytes = id ∧ Serde.decManifest bytes = some (m, []) ∧ out = Json.print (Pretty.manifest m) := by
  unfold Cat.pack at h
  split at h
  · cases h
  split at h
  · cases h
  rename_i m hm
  simp only [Except.ok.injEq] at h
  obtain ⟨bytes, h1, h2⟩ := C07.load_manifest_hashes _ _ _ _ _ hm
  exact ⟨bytes, m, h1, h2, h.symm⟩

/-- An index printed is read from bytes that hash to its ID. -/
theorem index_sound {id : ObjectId} {out : Bytes} (h : Cat.index Z H S id = .ok out) :
    ∃ bytes x, H bytes = id ∧ Serde.decIndex bytes = some (x, []) ∧ out = Json.print (Pretty.index x) := by
  unfold Cat.index at h
  split at h
  · cases h
  split at h
  · cases h
  rename_i x hm
  simp only [Except.ok.injEq] at h
  unfold loadIndex at hm
  split at hm
  · cases hm
  split at hm
  · cases hm
  dsimp only at hm
  split at hm
  · cases hm
  rename_i y used s hi
  split at hm
  · rename_i hid
    simp only [Except.ok.injEq] at hm
    subst hm
    have := (Stream.item_ok (Serde.read_local _) hi).2 []
    rw [List.append_nil] at this
    exact ⟨used, y, hid.symm, this, h.symm⟩
  · cases hm

theorem loadAll_ok {l : List (ObjectId × Bytes)} {ss : List (Snap ObjectId)} (h : Cat.loadAll H O l = .ok ss) :
    List.Forall₂ (fun e s => s.2 = e.1 ∧ loadSnapshot H O e.1 e.2 = .ok s.1) l ss := by
  induction l generalizing ss with
  | nil =>
    simp only [Cat.loadAll, Except.ok.injEq] at h
    subst h
    exact .nil
  | cons e l ih =>
    unfold Cat.loadAll at h
    split at h
    · cases h
    rename_i s hs
    split at h
    · cases h
    rename_i ss' hl
    simp only [Except.ok.injEq] at h
    subst h
    exact .cons ⟨rfl, hs⟩ (ih hl)

/-- A snapshot printed is one that is there, whose record hashes to its ID, and it is the one that the name stands for
among those there. -/
theorem snapshot_sound {name out : Bytes} (h : Cat.snapshot H O T S name = .ok out) :
    ∃ id f s loaded, (id, f) ∈ S.snapshots ∧ loadSnapshot H O id f = .ok s ∧ out = Json.print (Pretty.snapshot T s) ∧
      Cat.loadAll H O S.snapshots = .ok loaded ∧ findSnap (loadChronologically loaded) name = .ok (s, id) := by
  unfold Cat.snapshot at h
  split at h
  · cases h
  rename_i loaded hl
  split at h
  · cases h
  rename_i s hs
  simp only [Except.ok.injEq] at h
  have hm : s ∈ loaded := (sort_perm loaded).mem_iff.mp (C36.never_wrong _ _ _ hs).1
  obtain ⟨⟨id, f⟩, he, h1, h2⟩ := Written.forall₂_right (loadAll_ok hl) hm
  dsimp only at h1
  subst h1
  exact ⟨s.2, f, s.1, loaded, he, h2, h.symm, hl, hs⟩

/-! ## What was asked for -/

/-- In a repository in good order, every blob can be printed: a chunk as its bytes, a tree as itself. -/
theorem blob_written (hw : Written Z H R S) (hS : Sound (Codec.real H) R) {b : Blob ObjectId}
    (hb : Has (Codec.real H) R b) :
    (b.kind = .chunk → Cat.blob Z H T S b.id = .ok b.data) ∧
    (b.kind = .tree → ∃ t, Serde.OkTree t ∧ b.data = Serde.encTree t ∧
      Cat.blob Z H T S b.id = .ok (Json.print (Pretty.tree T t))) := by
  obtain ⟨x, bm, h1, h2, ho⟩ := Written.opens hw hS
  obtain ⟨p, bs, s, h3, h4, h5, h6, h7, _, _⟩ := lookup_has hS ho hb
  dsimp only at h3 h4
  obtain ⟨f, h8, h9, h10, h11⟩ := Written.getFile_pack hw hS.packs_sorted h5
  have hid : ∀ c ∈ bs, c.id = H c.data := fun c hc => (hS.hashes p bs c h6 h5 hc).symm
  have hne : b.data ≠ [] := hS.full p bs b h6 h5 h7
  have hx : Pack.extractBlob Z H f b.id (Pack.manifestOf bs) = .ok (Pack.entryOf b, b.data) := by
    obtain ⟨rest, k1, k2⟩ := C06.split_file Z h9
    obtain ⟨c, hc, hcid, hx⟩ := Pack.extractLoop_written H bs hid _ k2 b.id (List.mem_map.mpr ⟨b, h7, rfl⟩)
    obtain rfl : c = b := hS.has_one ((hS.has_iff c).mpr ⟨p, bs, h6, h5, hc⟩) hb hcid
    unfold Pack.extractBlob
    rw [if_pos, k1]
    · exact hx
    · rw [List.any_eq_true]
      exact ⟨Pack.entryOf c, List.mem_map.mpr ⟨c, h7, rfl⟩, by simp [Pack.entryOf]⟩
  constructor
  · intro hk
    simp only [Cat.blob, h1, h2, h3, h4, h8, hx, hne, if_false, Pack.entryOf, hk]
  · intro hk
    obtain ⟨t, ht, hd, _⟩ := hS.trees p bs b h6 h5 h7 hk
    refine ⟨t, ht, hd, ?_⟩
    have hr := C04.tree_round_trip t ht []
    rw [List.append_nil] at hr
    have hd' : Serde.decTree b.data = some (t, []) := by rw [hd]; exact hr
    simp only [Cat.blob, h1, h2, h3, h4, h8, hx, hne, if_false, Pack.entryOf, hk, hd']

/-- An ID of no blob is an error. -/
theorem blob_missing (hw : Written Z H R S) (hS : Sound (Codec.real H) R) {id : ObjectId}
    (hb : ∀ b, Has (Codec.real H) R b → b.id ≠ id) :
    Cat.blob Z H T S id = .error (.err "Can't find blob in the index") := by
  obtain ⟨x, bm, h1, h2, ho⟩ := Written.opens hw hS
  have hn : bm.get? id = none := by
    cases hp : bm.get? id with
    | none => rfl
    | some p =>
      obtain ⟨bs, s, b, _, _, _, _, h3, h4, _⟩ := lookup_sound hS ho (id := id) (p := p) hp
      exact absurd h3 (hb b h4)
  simp only [Cat.blob, h1, h2, hn]

/-- Every pack is printed as its manifest. -/
theorem pack_written (hw : Written Z H R S) (hs : BMap.Sorted R.packs) {p : ObjectId} {bs : List (Blob ObjectId)}
    (hp : (p, bs) ∈ R.packs) (hn : p = H (Serde.encManifest (Pack.manifestOf bs))) :
    Cat.pack Z H S p = .ok (Json.print (Pretty.manifest (bs.map fun b => ⟨b.kind, b.data.length, b.id⟩))) := by
  obtain ⟨f, h1, h2, h3, h4⟩ := Written.getFile_pack hw hs hp
  have := C06.load_manifest_written Z H h2 h3 h4
  rw [← hn] at this
  simp only [Cat.pack, h1, this]
  rfl

/-- Every index is printed as itself. -/
theorem index_written (hw : Written Z H R S) (hs : BMap.Sorted R.indexes) {i : ObjectId} {x : Index ObjectId}
    (hi : (i, x) ∈ R.indexes) : Cat.index Z H S i = .ok (Json.print (Pretty.index x)) := by
  obtain ⟨l, h1, h2⟩ := hw.indexes
  obtain ⟨⟨j, f⟩, hf, h3⟩ := Written.forall₂_left h2 hi
  obtain ⟨h4, h5⟩ := Written.loadIndex_written h3
  dsimp only at h4 h5
  subst h4
  have hn : (S.indexes.map Prod.fst).Nodup := by
    rw [(h1.map Prod.fst).symm.nodup_iff, Written.forall₂_keys (fun _ _ h => h.1) h2]
    exact hs.nodup
  have h6 := Written.getFile_of_mem hn (h1.mem_iff.mp hf)
  simp only [Cat.index, h6, h5]

theorem loadAll_written {l : List (ObjectId × Bytes)} {ss : List (ObjectId × Snapshot ObjectId)}
    (h : List.Forall₂ (fun f e => WrittenSnapshot H e f) l ss) : Cat.loadAll H O l = .ok (ss.map fun e => (e.2, e.1)) := by
  induction h with
  | nil => rfl
  | @cons f e l ss h _ ih =>
    obtain ⟨j, g⟩ := f
    have h1 := Written.loadSnapshot_written (O := O) h
    have h2 := h.1
    dsimp only at h1 h2
    subst h2
    simp only [Cat.loadAll, h1, ih, List.map_cons]

/-- The snapshot printed is the one that the name stands for. -/
theorem snapshot_written (hw : Written Z H R S) {name : Bytes} : ∃ loaded : List (Snap ObjectId),
    loaded.Perm (R.snapshots.map fun e => (e.2, e.1)) ∧
    (∀ s, findSnap (loadChronologically loaded) name = .ok s →
      Cat.snapshot H O T S name = .ok (Json.print (Pretty.snapshot T s.1))) ∧
    ∀ e, findSnap (loadChronologically loaded) name = .error e → Cat.snapshot H O T S name = .error e := by
  obtain ⟨l, h1, h2⟩ := hw.snapshots
  obtain ⟨ss, hf, hp⟩ := List.perm_comp_forall₂ h1.symm h2.flip
  refine ⟨ss.map fun e => (e.2, e.1), hp.map _, ?_, ?_⟩
  · intro s hs
    simp only [Cat.snapshot, loadAll_written hf, hs]
  · intro e he
    simp only [Cat.snapshot, loadAll_written hf, he]

/-- A snapshot asked for by its ID is printed. -/
theorem snapshot_by_id (hw : Written Z H R S) (hs : BMap.Sorted R.snapshots) {i : ObjectId} {s : Snapshot ObjectId}
    (h : (i, s) ∈ R.snapshots) : Cat.snapshot H O T S i.display = .ok (Json.print (Pretty.snapshot T s)) := by
  obtain ⟨loaded, h1, h2, _⟩ := snapshot_written (T := T) hw (name := i.display)
  refine h2 (s, i) (C36.full_id _ ?_ (s, i) ?_)
  · have hn : ((R.snapshots.map fun e => (e.2, e.1)).map Prod.snd).Nodup := by
      rw [List.map_map]
      exact hs.nodup
    exact (((sort_perm loaded).trans h1).map Prod.snd).nodup_iff.mpr hn
  · exact (((sort_perm loaded).trans h1).mem_iff).mpr (List.mem_map.mpr ⟨(i, s), h, rfl⟩)

/-! ## An example -/

/-- Times as numbers. -/
def plain : Clock := ⟨Json.number, fun t z => Json.print (.arr [.num t, .str z])⟩

theorem plain_exact : Pretty.Exact plain := by
  constructor
  · intro t t' h
    have : Json.print (.num t) = Json.print (.num t') := by rw [Json.print, Json.print]; exact h
    simpa using Json.print_inj this
  · intro t z t' z' h
    simpa using Json.print_inj h

/-- What the theorems ask of a repository, in one with files, folders and several packs. -/
example : Written Toy.zstd Demo.hash Demo.filesAB (Demo.store Demo.filesAB) ∧ Sound (Codec.real Demo.hash) Demo.filesAB ∧
    BMap.Sorted Demo.filesAB.snapshots ∧ Demo.filesAB.snapshots ≠ [] :=
  ⟨Demo.written_filesAB, Demo.healthy_filesAB.sound, Demo.healthy_filesAB.snapshots_sorted, by decide +kernel⟩

example : Cat.blob Toy.zstd Demo.hash plain (Demo.store Demo.filesAB) Demo.chunkA.id = .ok Demo.chunkA.data := by
  decide +kernel

/-- A name with a quotation mark, a line feed and a bell. -/
example : Json.print (Pretty.tree plain [([0x61, 0x22, 0x0a, 0x07], ⟨.link [0x5c], .posix ⟨0o120777, none, 0, 5, -3, 12⟩⟩)]) =
    ascii "{\"a\\\"\\n\\u0007\":{\"symlink\":\"\\\\\",\"metadata\":{\"type\":\"posix\",\"mode\":41471,\"uid\":0,\"gid\":5,\"atime\":\"-3\",\"mtime\":\"12\"}}}" := by
  decide +kernel

end Backpak.C64
