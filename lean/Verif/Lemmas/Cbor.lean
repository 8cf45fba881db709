import Verif.Model.Cbor
import Verif.Lemmas.Base32

/-! Lemmas about the CBOR encoder and decoder. -/

namespace Backpak.Cbor

@[simp] theorem length_be (n N : Nat) : (be n N).length = n := by simp [be]

theorem map_toNat_be (n N : Nat) : (be n N).map UInt8.toNat = toDigits 256 n N := by
  unfold be
  exact Base32.map_toNat_ofNat _ (toDigits_lt (by omega) _ _)

theorem rdBe_be (n N : Nat) (h : N < 256 ^ n) (rest : Bytes) :
    rdBe n (be n N ++ rest) = some (N, rest) := by
  unfold rdBe
  have hl : n ≤ (be n N ++ rest).length := by simp
  rw [if_pos hl, List.take_append_of_le_length (by simp), List.take_of_length_le (by simp),
    map_toNat_be, ofDigits_toDigits _ _ h]
  congr 2
  rw [List.drop_append_of_le_length (by simp), List.drop_of_length_le (by simp)]
  rfl

theorem rdHead_head (major n : Nat) (hm : major < 8) (hn : n < 2 ^ 64) (rest : Bytes) :
    rdHead (head major n ++ rest) = some (major, .val n, rest) := by
  have tn : ∀ k, k < 256 → (UInt8.ofNat k).toNat = k := by
    intro k hk
    rw [UInt8.toNat_ofNat']
    omega
  unfold head
  split
  · rename_i h
    simp only [List.cons_append, List.nil_append, rdHead]
    rw [tn _ (by omega)]
    have h1 : (32 * major + n) / 32 = major := by omega
    have h2 : (32 * major + n) % 32 = n := by omega
    rw [h1, h2, if_pos h]
  · split
    · rename_i h h'
      simp only [List.cons_append, rdHead]
      rw [tn _ (by omega)]
      have h1 : (32 * major + 24) / 32 = major := by omega
      have h2 : (32 * major + 24) % 32 = 24 := by omega
      rw [h1, h2, rdBe_be 1 n (by omega)]
      simp
    · split
      · rename_i h h' h''
        simp only [List.cons_append, rdHead]
        rw [tn _ (by omega)]
        have h1 : (32 * major + 25) / 32 = major := by omega
        have h2 : (32 * major + 25) % 32 = 25 := by omega
        rw [h1, h2, rdBe_be 2 n (by omega)]
        simp
      · split
        · rename_i h h' h'' h'''
          simp only [List.cons_append, rdHead]
          rw [tn _ (by omega)]
          have h1 : (32 * major + 26) / 32 = major := by omega
          have h2 : (32 * major + 26) % 32 = 26 := by omega
          rw [h1, h2, rdBe_be 4 n (by omega)]
          simp
        · rename_i h h' h'' h'''
          simp only [List.cons_append, rdHead]
          rw [tn _ (by omega)]
          have h1 : (32 * major + 27) / 32 = major := by omega
          have h2 : (32 * major + 27) % 32 = 27 := by omega
          rw [h1, h2, rdBe_be 8 n (by omega)]
          simp

theorem rdBytes_append (b rest : Bytes) : rdBytes b.length (b ++ rest) = some (b, rest) := by
  unfold rdBytes
  rw [if_pos (by simp)]
  simp

/-- First byte of a head with major type below 7 is not the break byte. -/
theorem head_ne_break (major n : Nat) (hm : major < 7) :
    ∃ b l, head major n = b :: l ∧ b ≠ 0xff := by
  have tn : ∀ k, k < 255 → UInt8.ofNat k ≠ 0xff := by
    intro k hk he
    have := congrArg UInt8.toNat he
    rw [UInt8.toNat_ofNat'] at this
    have h2 : (0xff : UInt8).toNat = 255 := rfl
    rw [h2] at this
    omega
  unfold head
  split
  · exact ⟨_, _, rfl, tn _ (by omega)⟩
  · split
    · exact ⟨_, _, rfl, tn _ (by omega)⟩
    · split
      · exact ⟨_, _, rfl, tn _ (by omega)⟩
      · split
        · exact ⟨_, _, rfl, tn _ (by omega)⟩
        · exact ⟨_, _, rfl, tn _ (by omega)⟩

theorem enc_ne_break (v : Cbor) : ∃ b l, enc v = b :: l ∧ b ≠ 0xff := by
  cases v with
  | uint n => rw [enc]; exact head_ne_break 0 n (by omega)
  | nint n => rw [enc]; exact head_ne_break 1 n (by omega)
  | bytes b =>
    rw [enc]
    obtain ⟨x, l, h, hx⟩ := head_ne_break 2 b.length (by omega)
    exact ⟨x, l ++ b, by rw [h]; rfl, hx⟩
  | text b =>
    rw [enc]
    obtain ⟨x, l, h, hx⟩ := head_ne_break 3 b.length (by omega)
    exact ⟨x, l ++ b, by rw [h]; rfl, hx⟩
  | arr l =>
    rw [enc]
    obtain ⟨x, k, h, hx⟩ := head_ne_break 4 l.length (by omega)
    exact ⟨x, k ++ encs l, by rw [h]; rfl, hx⟩
  | map l =>
    rw [enc]
    obtain ⟨x, k, h, hx⟩ := head_ne_break 5 (l.length / 2) (by omega)
    exact ⟨x, k ++ encs l, by rw [h]; rfl, hx⟩
  | mapI l => rw [enc]; exact ⟨_, _, rfl, by decide⟩
  | null => rw [enc]; exact ⟨_, _, rfl, by decide⟩

theorem length_enc_pos (v : Cbor) : 0 < (enc v).length := by
  obtain ⟨b, l, h, _⟩ := enc_ne_break v
  rw [h]; simp

theorem length_encs_ge (l : List Cbor) : l.length ≤ (encs l).length := by
  induction l with
  | nil => simp
  | cons v l ih =>
    rw [encs, List.length_append, List.length_cons]
    have := length_enc_pos v
    omega

theorem rdMany_encs (f : Bytes → Option (Cbor × Bytes)) (l : List Cbor) (rest : Bytes)
    (hf : ∀ v ∈ l, ∀ r, f (enc v ++ r) = some (v, r)) :
    rdMany f l.length (encs l ++ rest) = some (l, rest) := by
  induction l with
  | nil => rfl
  | cons v l ih =>
    rw [List.length_cons, rdMany, encs, List.append_assoc, hf v (by simp)]
    simp only []
    rw [ih (fun w hw => hf w (List.mem_cons_of_mem _ hw))]

theorem rdUntil_encs (f : Bytes → Option (Cbor × Bytes)) (l : List Cbor) (rest : Bytes) (n : Nat)
    (hn : l.length < n) (hf : ∀ v ∈ l, ∀ r, f (enc v ++ r) = some (v, r)) :
    rdUntil f n (encs l ++ 0xff :: rest) = some (l, rest) := by
  induction l generalizing n with
  | nil =>
    cases n with
    | zero => simp at hn
    | succ n => simp [encs, rdUntil]
  | cons v l ih =>
    cases n with
    | zero => simp at hn
    | succ n =>
      obtain ⟨b, k, hb, hne⟩ := enc_ne_break v
      have e : encs (v :: l) ++ 0xff :: rest = enc v ++ (encs l ++ 0xff :: rest) := by
        rw [encs, List.append_assoc]
      rw [e]
      have hstep := hf v (by simp) (encs l ++ 0xff :: rest)
      have e2 : enc v ++ (encs l ++ 0xff :: rest) = b :: (k ++ (encs l ++ 0xff :: rest)) := by
        rw [hb]; rfl
      rw [e2] at hstep ⊢
      rw [rdUntil]
      simp only [if_neg hne]
      rw [hstep]
      simp only []
      rw [ih n (by simpa using hn) (fun w hw => hf w (List.mem_cons_of_mem _ hw))]

theorem Oks_mem {d : Nat} {l : List Cbor} (h : Oks d l) : ∀ v ∈ l, Ok d v := by
  induction l with
  | nil => simp
  | cons v l ih =>
    rw [Oks] at h
    intro w hw
    rcases List.mem_cons.mp hw with rfl | hw
    · exact h.1
    · exact ih h.2 w hw

theorem Oks_of_mem {d : Nat} {l : List Cbor} (h : ∀ v ∈ l, Ok d v) : Oks d l := by
  induction l with
  | nil => rw [Oks]; trivial
  | cons v l ih =>
    rw [Oks]
    exact ⟨h v (by simp), ih (fun w hw => h w (List.mem_cons_of_mem _ hw))⟩

/-- What `into_writer` wrote, `from_reader` reads, leaving the rest. -/
theorem dec_enc (d : Nat) (v : Cbor) (h : Ok d v) (rest : Bytes) :
    dec d (enc v ++ rest) = some (v, rest) := by
  induction d generalizing v rest with
  | zero => cases v <;> simp [Ok] at h
  | succ d ih =>
    cases v with
    | uint n =>
      rw [Ok] at h
      rw [dec, enc, rdHead_head 0 n (by omega) h]; rfl
    | nint n =>
      rw [Ok] at h
      rw [dec, enc, rdHead_head 1 n (by omega) h]; rfl
    | bytes b =>
      rw [Ok] at h
      rw [dec, enc, List.append_assoc, rdHead_head 2 _ (by omega) h]
      simp [rdBytes_append]
    | text b =>
      rw [Ok] at h
      rw [dec, enc, List.append_assoc, rdHead_head 3 _ (by omega) h]
      simp [rdBytes_append]
    | arr l =>
      rw [Ok] at h
      rw [dec, enc, List.append_assoc, rdHead_head 4 _ (by omega) h.1]
      simp only []
      rw [rdMany_encs _ l rest (fun v hv r => ih v (Oks_mem h.2 v hv) r)]
      rfl
    | map l =>
      rw [Ok] at h
      rw [dec, enc, List.append_assoc, rdHead_head 5 _ (by omega) h.2.1]
      simp only []
      have e : 2 * (l.length / 2) = l.length := by omega
      rw [e, rdMany_encs _ l rest (fun v hv r => ih v (Oks_mem h.2.2 v hv) r)]
      rfl
    | mapI l =>
      rw [Ok] at h
      rw [dec, enc]
      have hh : rdHead (0xbf :: (encs l ++ [0xff]) ++ rest)
          = some (5, .indef, encs l ++ 0xff :: rest) := by
        simp [rdHead]
      rw [hh]
      simp only []
      rw [rdUntil_encs _ l rest _ _ (fun v hv r => ih v (Oks_mem h.2 v hv) r)]
      · simp [h.1]
      · have := length_encs_ge l
        simp
        omega
    | null =>
      rw [dec, enc]
      have hh : rdHead ([0xf6] ++ rest) = some (7, .val 22, rest) := by simp [rdHead]
      rw [hh]; rfl

end Backpak.Cbor
