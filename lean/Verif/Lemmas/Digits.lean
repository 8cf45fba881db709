import Verif.Model.Hashing
import Mathlib.Algebra.Order.Ring.Nat
import Mathlib.Tactic.Ring
import Mathlib.Tactic.Linarith
import Mathlib.Data.List.Induction

/-! Big-endian digit lemmas. -/

namespace Backpak

theorem ofDigits_append (B : Nat) (a b : List Nat) :
    ofDigits B (a ++ b) = ofDigits B a * B ^ b.length + ofDigits B b := by
  unfold ofDigits
  rw [List.foldl_append]
  have key : ∀ (l : List Nat) (x : Nat),
      l.foldl (fun a d => a * B + d) x = x * B ^ l.length + l.foldl (fun a d => a * B + d) 0 := by
    intro l
    induction l with
    | nil => intro x; simp
    | cons d l ih =>
      intro x
      simp only [List.foldl_cons, List.length_cons]
      rw [ih (x * B + d), ih (0 * B + d)]
      ring
  exact key b _

theorem ofDigits_cons (B d : Nat) (l : List Nat) :
    ofDigits B (d :: l) = d * B ^ l.length + ofDigits B l := by
  have := ofDigits_append B [d] l
  simpa [ofDigits] using this

@[simp] theorem ofDigits_nil (B : Nat) : ofDigits B [] = 0 := rfl

@[simp] theorem length_toDigits (B n N : Nat) : (toDigits B n N).length = n := by
  induction n generalizing N with
  | zero => rfl
  | succ n ih => simp [toDigits, ih]

theorem toDigits_lt {B : Nat} (hB : 0 < B) (n N : Nat) : ∀ d ∈ toDigits B n N, d < B := by
  induction n generalizing N with
  | zero => simp [toDigits]
  | succ n ih =>
    intro d hd
    simp only [toDigits, List.mem_append, List.mem_singleton] at hd
    rcases hd with hd | rfl
    · exact ih _ d hd
    · exact Nat.mod_lt _ hB

theorem ofDigits_toDigits {B : Nat} (n N : Nat) (h : N < B ^ n) :
    ofDigits B (toDigits B n N) = N := by
  induction n generalizing N with
  | zero => simp [toDigits] at h ⊢; omega
  | succ n ih =>
    have hB : 0 < B := by
      rcases Nat.eq_zero_or_pos B with rfl | h'
      · simp at h
      · exact h'
    rw [toDigits, ofDigits_append, ih]
    · simp [ofDigits]
      rw [Nat.mul_comm]
      exact Nat.div_add_mod N B
    · rw [Nat.div_lt_iff_lt_mul hB]
      rwa [← pow_succ]

theorem ofDigits_lt {B : Nat} (ds : List Nat) (h : ∀ d ∈ ds, d < B) :
    ofDigits B ds < B ^ ds.length := by
  induction ds with
  | nil => simp
  | cons d ds ih =>
    rw [ofDigits_cons, List.length_cons, pow_succ]
    have h1 := ih (fun x hx => h x (List.mem_cons_of_mem _ hx))
    have h2 := h d (by simp)
    have h3 : (d + 1) * B ^ ds.length ≤ B * B ^ ds.length := Nat.mul_le_mul_right _ h2
    rw [Nat.add_mul, Nat.one_mul] at h3
    rw [Nat.mul_comm (B ^ ds.length) B]
    omega

theorem toDigits_ofDigits {B : Nat} (ds : List Nat) (h : ∀ d ∈ ds, d < B) :
    toDigits B ds.length (ofDigits B ds) = ds := by
  induction ds using List.reverseRecOn with
  | nil => rfl
  | append_singleton ds d ih =>
    have hd : d < B := h d (by simp)
    have hB : 0 < B := by omega
    have hds := ih (fun x hx => h x (by simp [hx]))
    rw [List.length_append, List.length_singleton, toDigits, ofDigits_append]
    simp only [List.length_singleton, pow_one]
    have : ofDigits B [d] = d := by simp [ofDigits]
    rw [this]
    have h1 : (ofDigits B ds * B + d) / B = ofDigits B ds := by
      rw [Nat.add_comm, Nat.add_mul_div_right _ _ hB, Nat.div_eq_of_lt hd, Nat.zero_add]
    have h2 : (ofDigits B ds * B + d) % B = d := by
      rw [Nat.add_comm, Nat.add_mul_mod_self_right, Nat.mod_eq_of_lt hd]
    rw [h1, h2, hds]

/-- Digit lists of one length compare as their numbers do. -/
theorem lex_iff_ofDigits_lt {B : Nat} (a b : List Nat) (hl : a.length = b.length)
    (ha : ∀ d ∈ a, d < B) (hb : ∀ d ∈ b, d < B) :
    a < b ↔ ofDigits B a < ofDigits B b := by
  induction a generalizing b with
  | nil =>
    cases b with
    | nil => simp
    | cons _ _ => simp at hl
  | cons x a ih =>
    cases b with
    | nil => simp at hl
    | cons y b =>
      have hl' : a.length = b.length := by simpa using hl
      have hla := ofDigits_lt a (fun d hd => ha d (List.mem_cons_of_mem _ hd))
      have hlb := ofDigits_lt b (fun d hd => hb d (List.mem_cons_of_mem _ hd))
      have ih' := ih b hl' (fun d hd => ha d (List.mem_cons_of_mem _ hd))
        (fun d hd => hb d (List.mem_cons_of_mem _ hd))
      rw [ofDigits_cons, ofDigits_cons, hl', List.cons_lt_cons_iff, ih']
      rw [hl'] at hla
      rcases lt_trichotomy x y with hxy | hxy | hxy
      · have : (x + 1) * B ^ b.length ≤ y * B ^ b.length := Nat.mul_le_mul_right _ hxy
        rw [Nat.add_mul, Nat.one_mul] at this
        constructor
        · intro _; omega
        · intro _; exact Or.inl hxy
      · subst hxy
        simp
      · have : (y + 1) * B ^ b.length ≤ x * B ^ b.length := Nat.mul_le_mul_right _ hxy
        rw [Nat.add_mul, Nat.one_mul] at this
        constructor
        · rintro (h | ⟨h, _⟩) <;> omega
        · intro h; omega

end Backpak
