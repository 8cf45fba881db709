import Verif.Lemmas.Base32

/-!
# C01 - Object IDs print and parse without loss
-/

namespace Backpak.C01

/-- Printing an ID and parsing the text gives the ID back. -/
theorem parse_display (id : ObjectId) : ObjectId.parse id.display = some id := by
  unfold ObjectId.parse ObjectId.display
  rw [Base32.decode_encode]
  simp [id.len]

/-- The only text that parses as an ID is the text the ID prints as. -/
theorem parse_canonical (s : Bytes) (id : ObjectId) (h : ObjectId.parse s = some id) :
    s = id.display := by
  unfold ObjectId.parse at h
  cases hd : Base32.decode s with
  | none => rw [hd] at h; simp at h
  | some bs =>
    rw [hd] at h
    simp only [] at h
    split at h
    · simp only [Option.some.injEq] at h
      subst h
      exact (Base32.encode_of_decode s bs hd).symm
    · simp at h

/-- A printed ID is 45 characters of the alphabet `0-9a-v`. -/
theorem display_shape (id : ObjectId) :
    id.display.length = 45 ∧
    ∀ c ∈ id.display, (48 ≤ c.toNat ∧ c.toNat ≤ 57) ∨ (97 ≤ c.toNat ∧ c.toNat ≤ 118) := by
  constructor
  · unfold ObjectId.display; rw [Base32.length_encode, id.len]
  · intro c hc
    unfold ObjectId.display Base32.encode at hc
    obtain ⟨v, hv, rfl⟩ := List.mem_map.mp hc
    have hv := toDigits_lt (B := 32) (by omega) _ _ v hv
    have : ∀ v : Fin 32, (48 ≤ (Base32.symbol v.1).toNat ∧ (Base32.symbol v.1).toNat ≤ 57) ∨
        (97 ≤ (Base32.symbol v.1).toNat ∧ (Base32.symbol v.1).toNat ≤ 118) := by decide
    exact this ⟨v, hv⟩

/-- Two objects never share a text. -/
theorem display_injective (a b : ObjectId) (h : a.display = b.display) : a = b := by
  have ha := parse_display a
  rw [h, parse_display b] at ha
  exact (Option.some.inj ha).symm

/-- IDs sort the same way as text and as bytes. -/
theorem display_order (a b : ObjectId) : a.display < b.display ↔ a < b :=
  Base32.encode_lt_iff a.digest b.digest (by rw [a.len, b.len])

/-- A concrete ID (the bytes 0, 1, ..., 27) with its text. -/
def sampleId : ObjectId := ⟨(List.range 28).map UInt8.ofNat, by decide⟩

example : sampleId.display = ascii "000g40o40k30e209185go38e1s8124gj2gahc5oo34d1m" := by
  decide +kernel

/-- The hypothesis of `parse_canonical` is met by that text... -/
example : ObjectId.parse (ascii "000g40o40k30e209185go38e1s8124gj2gahc5oo34d1m") = some sampleId := by
  decide +kernel

/-- ... and setting the padding bit in its last symbol, or using uppercase, is refused. -/
example : ObjectId.parse (ascii "000g40o40k30e209185go38e1s8124gj2gahc5oo34d1n") = none ∧
    ObjectId.parse (ascii "000G40O40K30E209185GO38E1S8124GJ2GAHC5OO34D1M") = none := by
  decide +kernel

end Backpak.C01
