import Verif.Lemmas.Digits

/-! Lemmas about the base-32 text form of IDs. -/

namespace Backpak.Base32

theorem value_symbol (v : Nat) (h : v < 32) : value (symbol v) = some v := by
  have : ∀ v : Fin 32, value (symbol v.1) = some v.1 := by decide
  exact this ⟨v, h⟩

theorem symbol_value (c : UInt8) (v : Nat) (h : value c = some v) : symbol v = c ∧ v < 32 := by
  have key : ∀ n : Fin 256, ∀ w, value (UInt8.ofNat n.1) = some w →
      symbol w = UInt8.ofNat n.1 ∧ w < 32 := by
    intro n w hw
    have : ∀ n : Fin 256, (value (UInt8.ofNat n.1)).all
        (fun w => symbol w = UInt8.ofNat n.1 ∧ w < 32) = true := by decide +kernel
    have h := this n
    rw [hw] at h
    simpa using h
  have h1 := key ⟨c.toNat, c.toNat_lt⟩ v (by simpa using h)
  simpa using h1

theorem mapM_value_map_symbol (vs : List Nat) (h : ∀ v ∈ vs, v < 32) :
    (vs.map symbol).mapM value = some vs := by
  induction vs with
  | nil => rfl
  | cons v vs ih =>
    rw [List.map_cons, List.mapM_cons, value_symbol v (h v (by simp)),
      ih (fun x hx => h x (List.mem_cons_of_mem _ hx))]
    rfl

theorem map_symbol_of_mapM_value (s : Bytes) (vs : List Nat) (h : s.mapM value = some vs) :
    vs.map symbol = s ∧ (∀ v ∈ vs, v < 32) := by
  induction s generalizing vs with
  | nil => simp at h; subst h; simp
  | cons c s ih =>
    rw [List.mapM_cons] at h
    simp only [bind, Option.bind_eq_some_iff, pure, Option.some.injEq] at h
    obtain ⟨v, hv, ws, hws, rfl⟩ := h
    obtain ⟨h1, h2⟩ := ih ws hws
    obtain ⟨h3, h4⟩ := symbol_value c v hv
    constructor
    · simp [h1, h3]
    · intro x hx
      rcases List.mem_cons.mp hx with rfl | hx
      · exact h4
      · exact h2 x hx

theorem map_toNat_lt (bs : Bytes) : ∀ d ∈ bs.map UInt8.toNat, d < 256 := by
  intro d hd
  obtain ⟨b, _, rfl⟩ := List.mem_map.mp hd
  exact b.toNat_lt

theorem map_ofNat_toNat (bs : Bytes) : (bs.map UInt8.toNat).map UInt8.ofNat = bs := by
  induction bs with
  | nil => rfl
  | cons b bs ih => simp [ih]

theorem map_toNat_ofNat (ds : List Nat) (h : ∀ d ∈ ds, d < 256) :
    (ds.map UInt8.ofNat).map UInt8.toNat = ds := by
  induction ds with
  | nil => rfl
  | cons d ds ih =>
    have := h d (by simp)
    rw [List.map_cons, List.map_cons, ih (fun x hx => h x (List.mem_cons_of_mem _ hx))]
    simp [Nat.mod_eq_of_lt this]

theorem pow_256 (n : Nat) : (256 : Nat) ^ n = 2 ^ (8 * n) := by
  rw [Nat.pow_mul]

theorem pow_32 (n : Nat) : (32 : Nat) ^ n = 2 ^ (5 * n) := by
  rw [Nat.pow_mul]

theorem length_encode (bs : Bytes) : (encode bs).length = (8 * bs.length + 4) / 5 := by
  simp [encode]

/-- The number `encode` writes out fits in its symbols. -/
theorem padded_lt (bs : Bytes) :
    ofDigits 256 (bs.map UInt8.toNat) * 2 ^ (5 * ((8 * bs.length + 4) / 5) - 8 * bs.length)
      < 32 ^ ((8 * bs.length + 4) / 5) := by
  have h1 := ofDigits_lt (B := 256) (bs.map UInt8.toNat) (map_toNat_lt bs)
  rw [List.length_map, pow_256] at h1
  have h2 : (8 * bs.length) + (5 * ((8 * bs.length + 4) / 5) - 8 * bs.length)
      = 5 * ((8 * bs.length + 4) / 5) := by omega
  rw [pow_32, ← h2, Nat.pow_add]
  rw [h2]
  exact Nat.mul_lt_mul_of_pos_right h1 (Nat.two_pow_pos _)

theorem decode_encode (bs : Bytes) : decode (encode bs) = some bs := by
  unfold decode
  have hm : (encode bs).mapM value = some (toDigits 32 ((8 * bs.length + 4) / 5)
      (ofDigits 256 (bs.map UInt8.toNat) *
        2 ^ (5 * ((8 * bs.length + 4) / 5) - 8 * bs.length))) := by
    unfold encode
    exact mapM_value_map_symbol _ (toDigits_lt (by omega) _ _)
  rw [hm]
  simp only [length_encode]
  have ht : 5 * ((8 * bs.length + 4) / 5) % 8 = 5 * ((8 * bs.length + 4) / 5) - 8 * bs.length := by
    omega
  have hd : 5 * ((8 * bs.length + 4) / 5) / 8 = bs.length := by omega
  have hlt : ¬ (5 * ((8 * bs.length + 4) / 5) % 8 ≥ 5) := by omega
  rw [if_neg hlt, ofDigits_toDigits _ _ (padded_lt bs), ht, Nat.mul_mod_left]
  simp only [ne_eq, not_true_eq_false, ↓reduceIte, Option.some.injEq]
  rw [Nat.mul_div_cancel _ (Nat.two_pow_pos _), hd]
  have := toDigits_ofDigits (B := 256) (bs.map UInt8.toNat) (map_toNat_lt bs)
  rw [List.length_map] at this
  rw [this, map_ofNat_toNat]

theorem encode_of_decode (s bs : Bytes) (h : decode s = some bs) : encode bs = s := by
  unfold decode at h
  cases hm : s.mapM value with
  | none => rw [hm] at h; simp at h
  | some vs =>
    rw [hm] at h
    simp only [] at h
    split at h
    · simp at h
    rename_i h1
    split at h
    · simp at h
    rename_i h2
    simp only [Option.some.injEq] at h
    obtain ⟨hs, hv⟩ := map_symbol_of_mapM_value s vs hm
    have hl : vs.length = s.length := by rw [← hs]; simp
    have hbl : bs.length = 5 * s.length / 8 := by rw [← h]; simp
    have hbn : bs.map UInt8.toNat
        = toDigits 256 (5 * s.length / 8) (ofDigits 32 vs / 2 ^ (5 * s.length % 8)) := by
      rw [← h, map_toNat_ofNat]
      exact toDigits_lt (by omega) _ _
    have hlt : ofDigits 32 vs / 2 ^ (5 * s.length % 8) < 256 ^ (5 * s.length / 8) := by
      have := ofDigits_lt (B := 32) vs hv
      rw [hl, pow_32] at this
      rw [Nat.div_lt_iff_lt_mul (Nat.two_pow_pos _), pow_256, ← Nat.pow_add]
      have e : 8 * (5 * s.length / 8) + 5 * s.length % 8 = 5 * s.length := by omega
      rwa [e]
    unfold encode
    simp only []
    rw [hbn, ofDigits_toDigits _ _ hlt, hbl]
    have hk : (8 * (5 * s.length / 8) + 4) / 5 = s.length := by omega
    rw [hk]
    have hp : 5 * s.length - 8 * (5 * s.length / 8) = 5 * s.length % 8 := by omega
    rw [hp]
    have hz : ofDigits 32 vs % 2 ^ (5 * s.length % 8) = 0 := by simpa using h2
    rw [Nat.div_mul_cancel (Nat.dvd_of_mod_eq_zero hz)]
    have := toDigits_ofDigits (B := 32) vs hv
    rw [hl] at this
    rw [this, hs]

/-! Order -/

theorem map_lt_map_iff {α β : Type} [LinearOrder α] [LinearOrder β] (f : α → β) (P : α → Prop)
    (hf : ∀ x y, P x → P y → (f x < f y ↔ x < y)) (a b : List α)
    (ha : ∀ x ∈ a, P x) (hb : ∀ x ∈ b, P x) : a.map f < b.map f ↔ a < b := by
  induction a generalizing b with
  | nil => cases b <;> simp
  | cons x a ih =>
    cases b with
    | nil => simp
    | cons y b =>
      rw [List.map_cons, List.map_cons, List.cons_lt_cons_iff, List.cons_lt_cons_iff]
      have hx := ha x (by simp)
      have hy := hb y (by simp)
      rw [ih b (fun z hz => ha z (List.mem_cons_of_mem _ hz))
        (fun z hz => hb z (List.mem_cons_of_mem _ hz)), hf x y hx hy]
      have heq : f x = f y ↔ x = y := by
        constructor
        · intro h
          rcases lt_trichotomy x y with h' | h' | h'
          · exact absurd h (ne_of_lt ((hf x y hx hy).mpr h'))
          · exact h'
          · exact absurd h (ne_of_gt ((hf y x hy hx).mpr h'))
        · rintro rfl; rfl
      rw [heq]

theorem symbol_lt (x y : Nat) (hx : x < 32) (hy : y < 32) : symbol x < symbol y ↔ x < y := by
  have : ∀ x y : Fin 32, symbol x.1 < symbol y.1 ↔ x.1 < y.1 := by decide +kernel
  exact this ⟨x, hx⟩ ⟨y, hy⟩

theorem toNat_lt_iff (x y : UInt8) : x.toNat < y.toNat ↔ x < y := Iff.rfl

theorem encode_lt_iff (a b : Bytes) (h : a.length = b.length) : encode a < encode b ↔ a < b := by
  unfold encode
  simp only [h]
  rw [map_lt_map_iff symbol (· < 32) symbol_lt _ _ (toDigits_lt (by omega) _ _)
    (toDigits_lt (by omega) _ _)]
  have hpa := padded_lt a
  have hpb := padded_lt b
  rw [h] at hpa
  rw [lex_iff_ofDigits_lt (B := 32) _ _ (by simp) (toDigits_lt (by omega) _ _)
    (toDigits_lt (by omega) _ _), ofDigits_toDigits _ _ hpa, ofDigits_toDigits _ _ hpb]
  rw [Nat.mul_lt_mul_right (Nat.two_pow_pos _)]
  rw [← lex_iff_ofDigits_lt (B := 256) _ _ (by simpa using h) (map_toNat_lt a) (map_toNat_lt b)]
  exact map_lt_map_iff UInt8.toNat (fun _ => True) (fun x y _ _ => toNat_lt_iff x y) a b
    (fun _ _ => trivial) (fun _ _ => trivial)

end Backpak.Base32
