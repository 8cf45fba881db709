import Verif.Lemmas.Serde

/-!
# C03 - Index files survive the trip to disk
-/

namespace Backpak.C03

open Serde

/-- Reading back a written index gives the same superseded IDs and the same packs. -/
theorem index_round_trip (i : Index ObjectId) (h : OkIndex i) (rest : Bytes) :
    decIndex (encIndex i ++ rest) = some (i, rest) :=
  read_enc _ _ _ _ (ok_index _ i h) (asIndex_index i h)

/-- Different indexes have different bytes (so, short of a hash collision, different IDs). -/
theorem index_bytes_injective (i j : Index ObjectId) (hi : OkIndex i) (hj : OkIndex j)
    (h : encIndex i = encIndex j) : i = j := by
  have h1 := index_round_trip i hi []
  rw [h, index_round_trip j hj] at h1
  simpa [eq_comm] using h1

/-- The checked-in reference file `tests/references/index.stability`. -/
def reference : Bytes :=
  [0xa2, 0x6a, 0x73, 0x75, 0x70, 0x65, 0x72, 0x73, 0x65, 0x64, 0x65, 0x73, 0x82, 0x58, 0x1c, 0x32,
   0x9b, 0xef, 0xd9, 0xe1, 0xbf, 0xfd, 0x18, 0xc4, 0xc7, 0xd0, 0x5a, 0x73, 0x9b, 0xca, 0x4a,
   0xfa, 0xc5, 0x32, 0x37, 0x2d, 0xc5, 0x4d, 0xcd, 0xf6, 0xa4, 0x7d, 0xa9, 0x58, 0x1c, 0x94,
   0x5a, 0x97, 0x1b, 0x98, 0xa2, 0xad, 0xc4, 0x2c, 0x3c, 0xa6, 0x16, 0x56, 0xe2, 0x08, 0x9d,
   0x48, 0xd7, 0xe0, 0xd0, 0x61, 0xb4, 0x9a, 0xb4, 0x89, 0x17, 0xd7, 0xe6, 0x65, 0x70, 0x61,
   0x63, 0x6b, 0x73, 0xa2, 0x58, 0x1c, 0xbf, 0x39, 0x75, 0xbd, 0x81, 0x53, 0x5e, 0xce, 0x40,
   0xf3, 0xf1, 0xa9, 0xc1, 0xec, 0x6b, 0x2b, 0x40, 0xfb, 0x67, 0x2d, 0xc6, 0x82, 0x05, 0x22,
   0xe4, 0x07, 0x91, 0x71, 0x82, 0xa3, 0x64, 0x74, 0x79, 0x70, 0x65, 0x65, 0x63, 0x68, 0x75,
   0x6e, 0x6b, 0x66, 0x6c, 0x65, 0x6e, 0x67, 0x74, 0x68, 0x18, 0x2a, 0x62, 0x69, 0x64, 0x58,
   0x1c, 0x8e, 0x27, 0x1c, 0x18, 0xdf, 0xf8, 0xb2, 0xa7, 0x3c, 0x8b, 0xe0, 0xfc, 0x2e, 0x6e,
   0xb1, 0x9c, 0xe8, 0x53, 0x91, 0x86, 0x96, 0xc5, 0x97, 0xd9, 0x8e, 0x4f, 0xe1, 0xca, 0xa3,
   0x64, 0x74, 0x79, 0x70, 0x65, 0x65, 0x63, 0x68, 0x75, 0x6e, 0x6b, 0x66, 0x6c, 0x65, 0x6e,
   0x67, 0x74, 0x68, 0x19, 0x23, 0x29, 0x62, 0x69, 0x64, 0x58, 0x1c, 0x42, 0x9e, 0x32, 0xa2,
   0xb9, 0x51, 0x54, 0x75, 0x91, 0xef, 0x5a, 0x14, 0xc0, 0xfe, 0x5e, 0x60, 0x5d, 0xd4, 0x72,
   0x13, 0x8f, 0xa7, 0xe6, 0x7b, 0x00, 0xd3, 0x89, 0x38, 0x58, 0x1c, 0xc9, 0x2c, 0xd3, 0x8d,
   0xe2, 0x41, 0xa0, 0x8b, 0x21, 0x59, 0x3a, 0xb2, 0x3f, 0xf3, 0x06, 0x00, 0x23, 0x6e, 0x01,
   0x3a, 0x93, 0x19, 0x38, 0x30, 0x94, 0xd9, 0x18, 0xa4, 0x83, 0xa3, 0x64, 0x74, 0x79, 0x70,
   0x65, 0x64, 0x74, 0x72, 0x65, 0x65, 0x66, 0x6c, 0x65, 0x6e, 0x67, 0x74, 0x68, 0x18, 0xb6,
   0x62, 0x69, 0x64, 0x58, 0x1c, 0xca, 0x9e, 0x3a, 0x60, 0x3f, 0xda, 0xa7, 0x67, 0xee, 0xfc,
   0x8d, 0xe8, 0x04, 0xd1, 0xc5, 0x6b, 0x3e, 0x1c, 0x3d, 0x1d, 0x88, 0x6f, 0x23, 0x29, 0x03,
   0x60, 0xf8, 0x52, 0xa3, 0x64, 0x74, 0x79, 0x70, 0x65, 0x64, 0x74, 0x72, 0x65, 0x65, 0x66,
   0x6c, 0x65, 0x6e, 0x67, 0x74, 0x68, 0x16, 0x62, 0x69, 0x64, 0x58, 0x1c, 0x15, 0xc4, 0x18,
   0x79, 0x1a, 0x30, 0xa9, 0x8f, 0x06, 0xce, 0x8f, 0xe8, 0xb3, 0x0f, 0x17, 0xd4, 0x23, 0x9b,
   0x3f, 0xd9, 0xa2, 0xbc, 0x1d, 0x2f, 0xf2, 0x62, 0xe1, 0x7d, 0xa3, 0x64, 0x74, 0x79, 0x70,
   0x65, 0x64, 0x74, 0x72, 0x65, 0x65, 0x66, 0x6c, 0x65, 0x6e, 0x67, 0x74, 0x68, 0x0b, 0x62,
   0x69, 0x64, 0x58, 0x1c, 0xa7, 0x92, 0xc4, 0xe6, 0x2a, 0xc5, 0x0d, 0x7c, 0x74, 0x6e, 0x0a,
   0x2e, 0x50, 0x5d, 0x8d, 0x27, 0xa1, 0xab, 0xe9, 0xcb, 0xa7, 0x77, 0x89, 0x93, 0xa8, 0x2a,
   0xee, 0x76]

/-- The reference file decodes to two superseded IDs and two packs, and encodes back to itself. -/
example : (decIndex reference).map (fun p => (p.1.supersedes.length,
        p.1.packs.map fun q => q.2.map fun e => (e.kind, e.length), p.2)) =
      some (2, [[(.chunk, 42), (.chunk, 9001)], [(.tree, 182), (.tree, 22), (.tree, 11)]], []) ∧
    (decIndex reference).map (fun p => encIndex p.1) = some reference := by
  decide +kernel

/-- A concrete index meeting the hypothesis: two superseded IDs, one pack. -/
example : OkIndex ⟨[⟨List.replicate 28 1, by decide⟩, ⟨List.replicate 28 2, by decide⟩],
    [(⟨List.replicate 28 3, by decide⟩, [⟨.tree, 5, ⟨List.replicate 28 4, by decide⟩⟩])]⟩ where
  sup := by unfold BSet.Sorted; decide +kernel
  sup_len := by simp
  packs := by unfold BMap.Sorted; decide +kernel
  packs_len := by simp
  manifests := by
    intro p hp
    simp only [List.mem_cons, List.not_mem_nil, or_false] at hp
    subst hp
    exact ⟨by simp, by simp⟩

end Backpak.C03
