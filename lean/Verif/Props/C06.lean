import Verif.Lemmas.Pack
import Verif.Spec.Toy

/-!
# C06 - A written pack file can be read back

`WritesFile Z bs f` says `f` is a file the packer may leave for blobs `bs`, however
zstd cuts its frames. Blobs carry the hash of their bytes as ID, and are
smaller than 4 GiB (the packer panics otherwise).
-/

namespace Backpak.C06

open Pack

variable (Z : Zstd) (H : Bytes → ObjectId) {bs : List (Blob ObjectId)} {f : Bytes}

theorem split_file (hw : WritesFile Z bs f) :
    ∃ rest, checkMagic f = .ok rest ∧ contentOf bs <+: (Z.stream rest).data := by
  obtain ⟨zb, zm, hzb, _, _, rfl⟩ := hw
  refine ⟨zb ++ (zm ++ Cbor.be 4 zm.length), ?_, Z.stream_prefix _ _ _ hzb⟩
  unfold file
  rw [List.append_assoc, List.append_assoc]
  exact checkMagic_magic _

/-- The packer can always produce a file (short of a manifest over 4 GiB compressed). -/
theorem a_file_is_written (bs : List (Blob ObjectId))
    (hm : ∀ zm, Z.Frame zm (Serde.encManifest (manifestOf bs)) → zm.length < 2 ^ 32) :
    ∃ f, WritesFile Z bs f := by
  obtain ⟨zb, hzb⟩ := Z.frame_exists (contentOf bs)
  obtain ⟨zm, hzm⟩ := Z.frame_exists (Serde.encManifest (manifestOf bs))
  exact ⟨_, zb, zm, hzb, hzm, hm zm hzm, rfl⟩

/-- Reading only the tail gives the manifest of the blobs that were written, and its ID. -/
theorem tail_gives_manifest (hw : WritesFile Z bs f) (hn : bs.length < 2 ^ 64)
    (hu : ∀ b ∈ bs, b.data.length < 2 ^ 32) :
    manifestFromReader Z H f
      = .ok (bs.map fun b => ⟨b.kind, b.data.length, b.id⟩,
          H (Serde.encManifest (bs.map fun b => ⟨b.kind, b.data.length, b.id⟩))) :=
  manifestFromReader_written Z H hw hn hu

/-- Loading the manifest under the pack's own ID succeeds. -/
theorem load_manifest_written (hw : WritesFile Z bs f) (hn : bs.length < 2 ^ 64)
    (hu : ∀ b ∈ bs, b.data.length < 2 ^ 32) :
    loadManifest Z H (H (Serde.encManifest (manifestOf bs))) f = .ok (manifestOf bs) := by
  obtain ⟨rest, h1, _⟩ := split_file Z hw
  unfold loadManifest
  rw [h1]
  simp only
  rw [manifestFromReader_written Z H hw hn hu]
  simp

/-- A written pack passes verification against its manifest. -/
theorem written_verifies (hw : WritesFile Z bs f) (hn : bs.length < 2 ^ 64)
    (hu : ∀ b ∈ bs, b.data.length < 2 ^ 32) (hid : ∀ b ∈ bs, b.id = H b.data) :
    verify Z H f (manifestOf bs) = .ok () := by
  obtain ⟨rest, h1, h2⟩ := split_file Z hw
  unfold verify
  rw [h1]
  simp only
  rw [verifyBlobs_written H bs hid _ h2]
  simp only
  rw [manifestFromReader_written Z H hw hn hu]
  simp

/-- Each blob's exact bytes come back when asked for by ID, unless another blob in the same
pack has the same ID and different bytes (a hash collision). -/
theorem written_extracts (hw : WritesFile Z bs f) (hid : ∀ b ∈ bs, b.id = H b.data)
    (b : Blob ObjectId) (hb : b ∈ bs) (hcol : ∀ c ∈ bs, c.id = b.id → c.data = b.data) :
    ∃ e, extractBlob Z H f b.id (manifestOf bs) = .ok (e, b.data) ∧ e.id = b.id ∧
      e.length = b.data.length := by
  obtain ⟨rest, h1, h2⟩ := split_file Z hw
  obtain ⟨c, hc, hcid, hx⟩ := extractLoop_written H bs hid _ h2 b.id
    (List.mem_map.mpr ⟨b, hb, rfl⟩)
  refine ⟨entryOf c, ?_, hcid, ?_⟩
  · unfold extractBlob
    rw [if_pos, h1]
    · simp only
      rw [hx, hcol c hc hcid]
    · rw [List.any_eq_true]
      exact ⟨entryOf b, List.mem_map.mpr ⟨b, hb, rfl⟩, by simp [entryOf]⟩
  · show c.data.length = _
    rw [hcol c hc hcid]

/-- Loading a pack of chunks into the chunk cache yields every chunk with its bytes. -/
theorem written_loads_chunks (hw : WritesFile Z bs f) (hid : ∀ b ∈ bs, b.id = H b.data)
    (hk : ∀ b ∈ bs, b.kind = .chunk) :
    loadPack Z H f (manifestOf bs)
      = .ok (bs.map fun b => (b.id, b.data), (bs.map fun b => b.data.length).sum) := by
  obtain ⟨rest, h1, h2⟩ := split_file Z hw
  unfold loadPack
  rw [h1]
  exact loadLoop_written H bs hid hk _ h2

/-- Loading a pack of trees makes each of them available under its ID and keeps the trees
already loaded. -/
theorem written_loads_trees (ts : List (Tree ObjectId)) (hok : ∀ t ∈ ts, Serde.OkTree t)
    (hw : WritesFile Z (ts.map (treeBlob H Serde.encTree)) f)
    (forest : BMap ObjectId (Tree ObjectId)) (hs : BMap.Sorted forest) :
    ∃ forest', appendToForest Z H f (manifestOf (ts.map (treeBlob H Serde.encTree))) forest
        = .ok forest' ∧
      ∀ id, forest'.get? id =
        (forest.get? id).or (ts.find? (fun t => H (Serde.encTree t) = id)) := by
  obtain ⟨rest, h1, h2⟩ := split_file Z hw
  unfold appendToForest
  rw [h1]
  simp only
  have hdec : ∀ t ∈ ts, Serde.decTree (Serde.encTree t) = some (t, []) := by
    intro t ht
    have h := hok t ht
    have := Serde.read_enc Serde.asTree _ _ []
      (Serde.ok_tree 252 t h.len h.names h.contents (fun p hp => (h.mds p hp).noTime))
      (Serde.asTree_tree t h)
    rwa [List.append_nil] at this
  obtain ⟨f', h3, _, h4⟩ := appendLoop_written H ts hdec _ h2 forest hs
  exact ⟨f', h3, h4⟩

/-- Two blobs of a pack. -/
def sample : List (Blob ObjectId) :=
  [⟨[1, 2, 3], Toy.hash [1, 2, 3], .chunk⟩, ⟨[9], Toy.hash [9], .chunk⟩]

/-- All hypotheses together, on a concrete pack file. -/
example : WritesFile Toy.zstd sample
      (file (Toy.frame [1, 2, 3, 9]) (Toy.frame (Serde.encManifest (manifestOf sample)))) ∧
    (∀ b ∈ sample, b.id = Toy.hash b.data ∧ b.data.length < 2 ^ 32 ∧ b.kind = .chunk ∧
      ∀ c ∈ sample, c.id = b.id → c.data = b.data) := by
  refine ⟨⟨_, _, rfl, rfl, by decide +kernel, rfl⟩, by decide +kernel⟩

example : extractBlob Toy.zstd Toy.hash
    (file (Toy.frame [1, 2, 3, 9]) (Toy.frame (Serde.encManifest (manifestOf sample))))
    (Toy.hash [9]) (manifestOf sample) = .ok (⟨.chunk, 1, Toy.hash [9]⟩, [9]) := by
  decide +kernel

end Backpak.C06
