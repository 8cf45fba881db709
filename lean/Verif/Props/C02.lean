import Verif.Lemmas.Serde

/-!
# C02 - Pack manifests survive the trip to disk
-/

namespace Backpak.C02

open Serde

/-- Reading back a written manifest gives the same manifest and leaves whatever
follows it unread. -/
theorem manifest_round_trip (m : Manifest ObjectId) (rest : Bytes)
    (hlen : m.length < 2 ^ 64) (hu32 : ∀ e ∈ m, e.length < 2 ^ 32) :
    decManifest (encManifest m ++ rest) = some (m, rest) :=
  read_enc _ _ _ _ (ok_manifest _ m ⟨hlen, hu32⟩) (asManifest_manifest m ⟨hlen, hu32⟩)

/-- No written manifest is a proper prefix of, or equal to, another's bytes. -/
theorem manifest_prefix_free (m m' : Manifest ObjectId) (r r' : Bytes)
    (hlen : m.length < 2 ^ 64) (hu32 : ∀ e ∈ m, e.length < 2 ^ 32)
    (hlen' : m'.length < 2 ^ 64) (hu32' : ∀ e ∈ m', e.length < 2 ^ 32)
    (h : encManifest m ++ r = encManifest m' ++ r') : m = m' ∧ r = r' := by
  have h1 := manifest_round_trip m r hlen hu32
  rw [h, manifest_round_trip m' r' hlen' hu32'] at h1
  simpa [eq_comm] using h1

/-- The checked-in reference file `tests/references/pack.stability`. -/
def reference : Bytes :=
  [0x83, 0xa3, 0x64, 0x74, 0x79, 0x70, 0x65, 0x65, 0x63, 0x68, 0x75, 0x6e, 0x6b, 0x66, 0x6c, 0x65,
   0x6e, 0x67, 0x74, 0x68, 0x18, 0x2a, 0x62, 0x69, 0x64, 0x58, 0x1c, 0x25, 0xdc, 0xea, 0x77,
   0x02, 0xa3, 0x35, 0x90, 0xfb, 0xc3, 0xb7, 0x7f, 0xca, 0x5c, 0x7e, 0x41, 0x85, 0xbf, 0x69,
   0x50, 0x16, 0xc6, 0xaa, 0xc2, 0x06, 0x73, 0x2f, 0x2f, 0xa3, 0x64, 0x74, 0x79, 0x70, 0x65,
   0x64, 0x74, 0x72, 0x65, 0x65, 0x66, 0x6c, 0x65, 0x6e, 0x67, 0x74, 0x68, 0x16, 0x62, 0x69,
   0x64, 0x58, 0x1c, 0xec, 0x50, 0x9d, 0xf2, 0x6f, 0x24, 0xb0, 0x37, 0x06, 0x24, 0x70, 0xe4,
   0xa3, 0x06, 0x7e, 0x52, 0x08, 0x73, 0x4c, 0x7b, 0x0e, 0xfc, 0xf3, 0x7b, 0xca, 0x42, 0x1d,
   0x21, 0xa3, 0x64, 0x74, 0x79, 0x70, 0x65, 0x65, 0x63, 0x68, 0x75, 0x6e, 0x6b, 0x66, 0x6c,
   0x65, 0x6e, 0x67, 0x74, 0x68, 0x18, 0x2a, 0x62, 0x69, 0x64, 0x58, 0x1c, 0xf4, 0xd2, 0x2c,
   0x82, 0xa5, 0x90, 0xc7, 0x1c, 0xf5, 0x52, 0x85, 0x1a, 0xd0, 0xd4, 0xf5, 0x48, 0xa5, 0x20,
   0x38, 0x87, 0x4b, 0xa6, 0xf7, 0x61, 0x2c, 0x4c, 0x59, 0xe5]

/-- The reference file decodes to three entries and encodes back to itself, byte for byte. -/
example : (decManifest reference).map (fun p => (p.1.map fun e => (e.kind, e.length), p.2)) =
      some ([(.chunk, 42), (.tree, 22), (.chunk, 42)], []) ∧
    (decManifest reference).map (fun p => encManifest p.1) = some reference := by
  decide +kernel

/-- The hypotheses hold for a manifest with one entry of the largest length. -/
example : ∃ m : Manifest ObjectId, m ≠ [] ∧ m.length < 2 ^ 64 ∧ (∀ e ∈ m, e.length < 2 ^ 32) ∧
    decManifest (encManifest m ++ [7]) = some (m, [7]) :=
  ⟨[⟨.tree, 2 ^ 32 - 1, ⟨List.replicate 28 9, by decide⟩⟩], by simp, by simp, by simp,
    manifest_round_trip _ _ (by simp) (by simp)⟩

end Backpak.C02
