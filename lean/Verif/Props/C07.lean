import Verif.Lemmas.Pack
import Verif.Spec.Toy

/-!
# C07 - Reads never return bytes that do not hash to the requested ID

Here `f` is an arbitrary byte string a backend might return, `m` an arbitrary
manifest and `H` an arbitrary hash.
-/

namespace Backpak.C07

open Pack

variable (Z : Zstd) (H : Bytes → ObjectId) (f : Bytes) (m : Manifest ObjectId)

/-- A blob extracted by ID hashes to that ID. -/
theorem extract_hashes (id : ObjectId) (e : Entry ObjectId) (bs : Bytes)
    (h : extractBlob Z H f id m = .ok (e, bs)) : H bs = id ∧ e ∈ m ∧ e.id = id := by
  unfold extractBlob at h
  split at h
  · split at h
    · simp at h
    · obtain ⟨h1, h2, h3, _⟩ := extractLoop_sound H id m _ e bs h
      exact ⟨h1, h2, h3⟩
  · simp at h

/-- Every chunk put into the chunk cache hashes to its ID and is one the manifest lists. -/
theorem load_pack_hashes (l : List (ObjectId × Bytes)) (n : Nat)
    (h : loadPack Z H f m = .ok (l, n)) :
    ∀ p ∈ l, H p.2 = p.1 ∧ ∃ e ∈ m, e.id = p.1 ∧ e.kind = .chunk := by
  unfold loadPack at h
  split at h
  · simp at h
  · obtain ⟨h1, h2, _, _⟩ := loadLoop_sound H m _ l n h
    intro p hp
    refine ⟨h1 p hp, ?_⟩
    have : p.1 ∈ (m.filter (fun e => e.kind = .chunk)).map Entry.id := by
      rw [← h2]; exact List.mem_map.mpr ⟨p, hp, rfl⟩
    obtain ⟨e, he, hid⟩ := List.mem_map.mp this
    rw [List.mem_filter] at he
    exact ⟨e, he.1, hid, by simpa using he.2⟩

/-- Every tree added to the forest is the decoding of bytes that hash to its ID. -/
theorem append_hashes (forest forest' : BMap ObjectId (Tree ObjectId)) (hs : BMap.Sorted forest)
    (h : appendToForest Z H f m forest = .ok forest') (id : ObjectId) (t : Tree ObjectId)
    (ht : forest'.get? id = some t) :
    forest.get? id = some t ∨ ∃ bs, H bs = id ∧ Serde.decTree bs = some (t, []) := by
  unfold appendToForest at h
  split at h
  · simp at h
  · rcases appendLoop_sound H (Serde.read_local _) m _ forest forest' hs h id t ht with h | ⟨bs, h1, h2, _⟩
    · exact .inl h
    · exact .inr ⟨bs, h1, h2⟩

/-- A manifest loaded by pack ID is the decoding of bytes that hash to the ID. -/
theorem load_manifest_hashes (id : ObjectId) (h : loadManifest Z H id f = .ok m) :
    ∃ bs, H bs = id ∧ Serde.decManifest bs = some (m, []) := by
  unfold loadManifest at h
  split at h
  · simp at h
  · split at h
    · simp at h
    · rename_i m' id' hm
      split at h
      · rename_i hid
        simp only [Except.ok.injEq] at h
        subst h
        unfold manifestFromReader at hm
        split at hm
        · simp at hm
        · simp only at hm
          split at hm
          · simp at hm
          · split at hm
            · simp at hm
            · rename_i m2 used s' hitem
              simp only [Except.ok.injEq, Prod.mk.injEq] at hm
              obtain ⟨rfl, rfl⟩ := hm
              have := (Stream.item_ok (Serde.read_local _) hitem).2 []
              rw [List.append_nil] at this
              exact ⟨used, hid.symm, this⟩
      · simp at h

/-- Successful verification means: the decompressed file starts with one piece per manifest
entry, each hashing to that entry's ID. -/
theorem verified_hashes (h : verify Z H f m = .ok ()) :
    ∃ rest, f = magic ++ rest ∧ ∃ ps : List Bytes, ps.flatten <+: (Z.stream rest).data ∧
      List.Forall₂ (fun e p => H p = e.id) m ps := by
  unfold verify at h
  split at h
  · simp at h
  · rename_i rest hr
    refine ⟨rest, checkMagic_ok hr, ?_⟩
    split at h
    · simp at h
    · rename_i hv
      obtain ⟨ps, h1, h2⟩ := verifyBlobs_sound H m _ hv
      exact ⟨ps, h1, h2.imp (fun _ _ h => h.1)⟩

/-- After successful verification every chunk of the manifest can be extracted, and the bytes
obtained hash to its ID. -/
theorem verified_extracts (h : verify Z H f m = .ok ()) (e : Entry ObjectId) (he : e ∈ m) :
    ∃ e' bs, extractBlob Z H f e.id m = .ok (e', bs) ∧ H bs = e.id := by
  unfold verify at h
  split at h
  · simp at h
  · rename_i rest hr
    split at h
    · simp at h
    · rename_i hv
      have key : ∀ (m : Manifest ObjectId) (s : Stream), verifyBlobs H m s = .ok () → e ∈ m →
          ∃ e' bs, extractLoop H e.id m s = .ok (e', bs) ∧ H bs = e.id := by
        intro m
        induction m with
        | nil => intro s _ hm; simp at hm
        | cons e1 m ih =>
          intro s hv hm
          unfold verifyBlobs at hv
          unfold extractLoop
          split at hv
          · simp at hv
          · rename_i bs s' ht
            split at hv
            · rename_i hh
              by_cases hid : e1.id = e.id
              · rw [if_pos hid, if_pos (by rw [← hid, hh])]
                exact ⟨e1, bs, rfl, by rw [← hid, hh]⟩
              · rw [if_neg hid]
                refine ih s' hv ?_
                rcases List.mem_cons.mp hm with rfl | hm
                · exact absurd rfl hid
                · exact hm
            · simp at hv
      obtain ⟨e', bs, h1, h2⟩ := key m _ hv he
      refine ⟨e', bs, ?_, h2⟩
      unfold extractBlob
      rw [if_pos, hr]
      · exact h1
      · rw [List.any_eq_true]
        exact ⟨e, he, by simp⟩

/-- A pack file as it was written verifies against no other manifest than its own. -/
theorem verified_manifest (bs : List (Blob ObjectId)) (hw : WritesFile Z bs f) (hn : bs.length < 2 ^ 64)
    (hu : ∀ b ∈ bs, b.data.length < 2 ^ 32) (h : verify Z H f m = .ok ()) :
    m = bs.map (fun b => ⟨b.kind, b.data.length, b.id⟩) := by
  unfold verify at h
  split at h
  · simp at h
  · split at h
    · simp at h
    · rw [manifestFromReader_written Z H hw hn hu] at h
      simp only at h
      split at h
      · assumption
      · simp at h

/-- Some chunk and its ID. -/
def m1 : Manifest ObjectId := [⟨.chunk, 3, Toy.hash [1, 2, 3]⟩]

/-- A sound file is read... -/
example : extractBlob Toy.zstd Toy.hash (magic ++ Toy.frame [1, 2, 3]) (Toy.hash [1, 2, 3]) m1
    = .ok (⟨.chunk, 3, Toy.hash [1, 2, 3]⟩, [1, 2, 3]) := by decide +kernel

/-- ... and a corrupted one is refused. -/
example : extractBlob Toy.zstd Toy.hash (magic ++ Toy.frame [1, 2, 4]) (Toy.hash [1, 2, 3]) m1
    = .error (.err "Calculated hash of blob doesn't match ID") := by decide +kernel

/-- Verification succeeds on a sound file. -/
example : verify Toy.zstd Toy.hash
    (file (Toy.frame [1, 2, 3]) (Toy.frame (Serde.encManifest m1))) m1 = .ok () := by decide +kernel

/-- A sound file is refused when the index calls its chunk a tree. -/
example : verify Toy.zstd Toy.hash
    (file (Toy.frame [1, 2, 3]) (Toy.frame (Serde.encManifest m1)))
      [⟨.tree, 3, Toy.hash [1, 2, 3]⟩] ≠ .ok () := by decide +kernel

end Backpak.C07
