import Verif.Spec.Json
import Verif.Lemmas.Base32
import Mathlib.Tactic.Ring
import Mathlib.Tactic.IntervalCases

/-!
# What is printed as JSON can be read
-/

namespace Backpak.Json

theorem digit_toNat {d : Nat} (h : d < 10) : (UInt8.ofNat (48 + d)).toNat = 48 + d := by
  simp only [UInt8.toNat_ofNat']
  omega

theorem digit_is {d : Nat} (h : d < 10) : isDigit (UInt8.ofNat (48 + d)) = true := by
  simp only [isDigit, digit_toNat h, decide_eq_true_eq]
  omega

theorem decimal_digits (n : Nat) : ∀ c ∈ decimal n, isDigit c = true := by
  induction n using Nat.strongRecOn with
  | ind n ih =>
    rw [decimal]
    split
    · rename_i h
      intro c hc
      obtain rfl := List.mem_singleton.mp hc
      exact digit_is h
    · intro c hc
      rcases List.mem_append.mp hc with hc | hc
      · exact ih (n / 10) (by omega) c hc
      · obtain rfl := List.mem_singleton.mp hc
        exact digit_is (by omega)

theorem decimal_ne (n : Nat) : decimal n ≠ [] := by
  rw [decimal]
  split <;> simp

theorem decimal_value (n : Nat) : (decimal n).foldl (fun n c => n * 10 + (c.toNat - 48)) 0 = n := by
  induction n using Nat.strongRecOn with
  | ind n ih =>
    rw [decimal]
    split
    · rename_i h
      simp only [List.foldl_cons, List.foldl_nil, digit_toNat h]
      omega
    · rw [List.foldl_append, ih (n / 10) (by omega)]
      simp only [List.foldl_cons, List.foldl_nil, digit_toNat (d := n % 10) (by omega)]
      omega

theorem decimal_head (n : Nat) : (decimal n).head? = some 48 → n = 0 := by
  induction n using Nat.strongRecOn with
  | ind n ih =>
    rw [decimal]
    split
    · rename_i h
      intro hc
      simp only [List.head?_cons, Option.some.injEq] at hc
      have := congrArg UInt8.toNat hc
      rw [digit_toNat h] at this
      have h48 : (48 : UInt8).toNat = 48 := rfl
      omega
    · intro hc
      rw [List.head?_append_of_ne_nil _ (decimal_ne _)] at hc
      have := ih (n / 10) (by omega) hc
      omega

/-- What follows does not go on with a digit. -/
def Stops (rest : Bytes) : Prop := ∀ c, rest.head? = some c → isDigit c = false

theorem takeWhile_digits {ds rest : Bytes} (h : ∀ c ∈ ds, isDigit c = true) (hr : Stops rest) :
    (ds ++ rest).takeWhile isDigit = ds ∧ (ds ++ rest).dropWhile isDigit = rest := by
  induction ds with
  | nil =>
    cases rest with
    | nil => exact ⟨rfl, rfl⟩
    | cons c r =>
      have := hr c rfl
      simp [this]
  | cons d ds ih =>
    obtain ⟨h1, h2⟩ := ih (fun c hc => h c (List.mem_cons_of_mem _ hc))
    have hd := h d List.mem_cons_self
    simp [hd, h1, h2]

theorem rdDigits_decimal (n : Nat) {rest : Bytes} (hr : Stops rest) : rdDigits (decimal n ++ rest) = some (n, rest) := by
  obtain ⟨h1, h2⟩ := takeWhile_digits (decimal_digits n) hr
  simp only [rdDigits, h1, h2, decimal_value]
  rw [if_neg]
  rintro (h | ⟨h, h'⟩)
  · exact decimal_ne n h
  · obtain rfl := decimal_head n h
    rw [decimal] at h'
    exact h' rfl

theorem decimal_cons (n : Nat) : ∃ c r, decimal n = c :: r ∧ isDigit c = true := by
  cases h : decimal n with
  | nil => exact absurd h (decimal_ne n)
  | cons c r => exact ⟨c, r, rfl, decimal_digits n c (by rw [h]; exact List.mem_cons_self)⟩

/-- An escape that reads as `c`. -/
def reads (c : UInt8) : Bytes → Bool
  | [x] => decide (x = c ∧ ¬ c.toNat < 0x20 ∧ c ≠ 0x22 ∧ c ≠ 0x5c)
  | [a, b] => decide (a = 0x5c ∧ b ≠ 0x75 ∧ simple b = some c)
  | [a, u, w, x, y, z] => decide (a = 0x5c ∧ u = 0x75 ∧ unescape w x y z = some c)
  | _ => false

theorem escape_reads (c : UInt8) : reads c (escape c) = true := by
  have key : ∀ k : Fin 256, reads (UInt8.ofNat k.1) (escape (UInt8.ofNat k.1)) = true := by decide +kernel
  have := key ⟨c.toNat, c.toNat_lt⟩
  rwa [UInt8.ofNat_toNat] at this

theorem rdString_plain {c : UInt8} {r s r' : Bytes} (h1 : ¬ c.toNat < 0x20) (h2 : c ≠ 0x22) (h3 : c ≠ 0x5c)
    (h : rdString r = some (s, r')) : rdString (c :: r) = some (c :: s, r') := by
  rw [rdString]
  · simp [h1, h]
  · exact h2
  · intros; exact h3 ‹_›
  · intros; exact h3 ‹_›

theorem rdString_simple {e c : UInt8} {r s r' : Bytes} (h1 : e ≠ 0x75) (h2 : simple e = some c)
    (h : rdString r = some (s, r')) : rdString (0x5c :: e :: r) = some (c :: s, r') := by
  rw [rdString]
  · simp [h2, h]
  · intros; exact h1 ‹_›

theorem rdString_escape (c : UInt8) (r : Bytes) {s r' : Bytes} (h : rdString r = some (s, r')) :
    rdString (escape c ++ r) = some (c :: s, r') := by
  have hr := escape_reads c
  generalize escape c = e at hr
  unfold reads at hr
  split at hr
  · simp only [decide_eq_true_eq] at hr
    obtain ⟨rfl, h1, h2, h3⟩ := hr
    exact rdString_plain h1 h2 h3 h
  · simp only [decide_eq_true_eq] at hr
    obtain ⟨rfl, h1, h2⟩ := hr
    exact rdString_simple h1 h2 h
  · simp only [decide_eq_true_eq] at hr
    obtain ⟨rfl, rfl, h1⟩ := hr
    simp [rdString, h1, h]
  · cases hr

/-- A string is read to its end. -/
theorem rdString_quote (b rest : Bytes) : rdString (b.flatMap escape ++ 0x22 :: rest) = some (b, rest) := by
  induction b with
  | nil => simp [rdString]
  | cons c b ih =>
    rw [List.flatMap_cons, List.append_assoc]
    exact rdString_escape c _ ih

theorem stops_nil : Stops [] := fun c h => by cases h

theorem stops_cons {c : UInt8} {r : Bytes} (h : isDigit c = false) : Stops (c :: r) := by
  intro d hd
  simp only [List.head?_cons, Option.some.injEq] at hd
  exact hd ▸ h

/-- A value does not start like the end of a list. -/
theorem print_head (j : Json) : ∃ c r, print j = c :: r ∧ c ≠ 0x5d := by
  cases j with
  | null => exact ⟨_, _, rfl, by decide⟩
  | num i =>
    cases i with
    | ofNat n =>
      obtain ⟨c, r, h, hd⟩ := decimal_cons n
      refine ⟨c, r, by simp only [print, number, h], ?_⟩
      rintro rfl
      exact absurd hd (by decide)
    | negSucc n => exact ⟨_, _, rfl, by decide⟩
  | str b => exact ⟨_, _, rfl, by decide⟩
  | arr l => exact ⟨_, _, by rw [print], by decide⟩
  | obj l => exact ⟨_, _, by rw [print], by decide⟩

theorem rd_str (n : Nat) (r : Bytes) : rd (n + 1) (0x22 :: r) = (rdString r).map fun x => (.str x.1, x.2) := by
  rw [rd, if_pos rfl]

theorem rd_arr_nil (n : Nat) (r : Bytes) : rd (n + 1) (0x5b :: 0x5d :: r) = some (.arr [], r) := by
  rw [rd, if_neg (by decide), if_pos rfl]
  rfl

theorem rd_arr (n : Nat) {c : UInt8} (h : c ≠ 0x5d) (r : Bytes) :
    rd (n + 1) (0x5b :: c :: r) = (rdItems n (c :: r)).map fun x => (.arr x.1, x.2) := by
  rw [rd, if_neg (by decide), if_pos rfl, if_neg (by simpa using h)]

theorem rd_obj_nil (n : Nat) (r : Bytes) : rd (n + 1) (0x7b :: 0x7d :: r) = some (.obj [], r) := by
  rw [rd, if_neg (by decide), if_neg (by decide), if_pos rfl]
  rfl

theorem rd_obj (n : Nat) (r : Bytes) :
    rd (n + 1) (0x7b :: 0x22 :: r) = (rdFields n (0x22 :: r)).map fun x => (.obj x.1, x.2) := by
  rw [rd, if_neg (by decide), if_neg (by decide), if_pos rfl, if_neg (by simp)]

theorem rd_minus (n m : Nat) {r r' : Bytes} (h : rdDigits r = some (m, r')) :
    rd (n + 1) (0x2d :: r) = some (.num (-(m : Int)), r') := by
  rw [rd, if_neg (by decide), if_neg (by decide), if_neg (by decide), if_pos rfl, h]
  rfl

theorem rd_digit (n : Nat) {c : UInt8} (hd : isDigit c = true) (r : Bytes) :
    rd (n + 1) (c :: r) = (rdDigits (c :: r)).map fun x => (.num x.1, x.2) := by
  have h1 : c ≠ 0x22 := by rintro rfl; exact absurd hd (by decide)
  have h2 : c ≠ 0x5b := by rintro rfl; exact absurd hd (by decide)
  have h3 : c ≠ 0x7b := by rintro rfl; exact absurd hd (by decide)
  have h4 : c ≠ 0x2d := by rintro rfl; exact absurd hd (by decide)
  rw [rd, if_neg h1, if_neg h2, if_neg h3, if_neg h4, if_pos hd]

theorem rd_null (n : Nat) (r : Bytes) : rd (n + 1) (ascii "null" ++ r) = some (.null, r) := by
  show rd (n + 1) (0x6e :: 0x75 :: 0x6c :: 0x6c :: r) = _
  rw [rd, if_neg (by decide), if_neg (by decide), if_neg (by decide), if_neg (by decide), if_neg (by decide)]
  rfl

/-- What is printed is read back, and no more than it. -/
theorem rd_all (n : Nat) :
    (∀ (j : Json) (rest : Bytes), (print j).length ≤ n → Stops rest → rd n (print j ++ rest) = some (j, rest)) ∧
    (∀ (j : Json) (l : List Json) (rest : Bytes), (items (j :: l)).length + 1 ≤ n →
      rdItems n (items (j :: l) ++ 0x5d :: rest) = some (j :: l, rest)) ∧
    ∀ (k : Bytes) (j : Json) (l : List (Bytes × Json)) (rest : Bytes), (fields ((k, j) :: l)).length + 1 ≤ n →
      rdFields n (fields ((k, j) :: l) ++ 0x7d :: rest) = some ((k, j) :: l, rest) := by
  induction n with
  | zero =>
    refine ⟨fun j rest hn _ => ?_, fun j l rest hn => by omega, fun k j l rest hn => by omega⟩
    obtain ⟨c, r, h, _⟩ := print_head j
    rw [h, List.length_cons] at hn
    omega
  | succ n ih =>
  refine ⟨?_, ?_, ?_⟩
  · intro j rest hn hr
    cases j with
    | null => rw [print]; exact rd_null n rest
    | num i =>
      rw [print]
      cases i with
      | ofNat m =>
        obtain ⟨c, r, h, hd⟩ := decimal_cons m
        have hx := rdDigits_decimal m hr
        rw [number, h, List.cons_append] at *
        rw [rd_digit n hd, hx]
        rfl
      | negSucc m =>
        rw [number, List.cons_append, rd_minus n _ (rdDigits_decimal (m + 1) hr)]
        rfl
    | str b =>
      rw [print, quote, List.cons_append, List.append_assoc, rd_str]
      exact congrArg _ (rdString_quote b rest)
    | arr l =>
      simp only [print, List.cons_append, List.append_assoc, List.nil_append, List.length_cons, List.length_append] at hn ⊢
      cases l with
      | nil => exact rd_arr_nil n rest
      | cons j l =>
        have h := ih.2.1 j l rest (by simpa using hn)
        obtain ⟨c, r, hc, hne⟩ := print_head j
        have hcons : items (j :: l) ++ 0x5d :: rest = c :: (r ++ (if l.isEmpty then [] else [0x2c]) ++ items l ++ 0x5d :: rest) := by
          simp [items, hc]
        rw [hcons] at h ⊢
        generalize (r ++ (if l.isEmpty then [] else [0x2c]) ++ items l ++ 0x5d :: rest : Bytes) = x at h
        rw [rd_arr n hne, h]
        rfl
    | obj l =>
      simp only [print, List.cons_append, List.append_assoc, List.nil_append, List.length_cons, List.length_append] at hn ⊢
      cases l with
      | nil => exact rd_obj_nil n rest
      | cons p l =>
        obtain ⟨k, j⟩ := p
        have h := ih.2.2 k j l rest (by simpa using hn)
        have hcons : fields ((k, j) :: l) ++ 0x7d :: rest = 0x22 :: (k.flatMap escape ++ [0x22] ++ 0x3a ::
            (print j ++ (if l.isEmpty then [] else [0x2c]) ++ fields l) ++ 0x7d :: rest) := by
          simp [fields, quote]
        rw [hcons] at h ⊢
        generalize (k.flatMap escape ++ [0x22] ++ 0x3a ::
            (print j ++ (if l.isEmpty then [] else [0x2c]) ++ fields l) ++ 0x7d :: rest : Bytes) = x at h
        rw [rd_obj, h]
        rfl
  · intro j l rest hn
    cases l with
    | nil =>
      simp only [items, List.isEmpty_nil, if_true, List.append_nil] at hn ⊢
      rw [rdItems, ih.1 j _ (by omega) (stops_cons (by decide))]
      rfl
    | cons j' l =>
      have ih' := ih.2.1 j' l rest
      generalize hl : j' :: l = L at ih'
      rw [items, hl] at hn
      rw [items]
      have he : L.isEmpty = false := by rw [← hl]; rfl
      simp only [he, Bool.false_eq_true, if_false, List.append_assoc, List.length_append, List.cons_append,
        List.nil_append, List.length_cons] at hn ⊢
      rw [rdItems, ih.1 j _ (by omega) (stops_cons (by decide))]
      simp only [ih' (by omega), Option.map_some]
  · intro k j l rest hn
    cases l with
    | nil =>
      simp only [fields, quote, List.isEmpty_nil, if_true, List.append_nil, List.cons_append, List.append_assoc,
        List.nil_append, List.length_cons, List.length_append] at hn ⊢
      simp only [rdFields, rdString_quote]
      rw [ih.1 j _ (by omega) (stops_cons (by decide))]
      rfl
    | cons p' l =>
      obtain ⟨k', j'⟩ := p'
      have ih' := ih.2.2 k' j' l rest
      generalize hl : (k', j') :: l = L at ih'
      rw [fields, hl] at hn
      rw [fields]
      have he : L.isEmpty = false := by rw [← hl]; rfl
      simp only [he, Bool.false_eq_true, if_false, quote, List.append_assoc, List.length_append, List.cons_append,
        List.nil_append, List.length_cons] at hn ⊢
      simp only [rdFields, rdString_quote]
      rw [ih.1 j _ (by omega) (stops_cons (by decide))]
      simp only [ih' (by omega), Option.map_some]

/-- What is printed reads as what was printed. -/
theorem parse_print (j : Json) : parse (print j) = some j := by
  have := (rd_all (print j).length).1 j [] le_rfl stops_nil
  rw [List.append_nil] at this
  simp only [parse, this]

/-- Different values are printed differently. -/
theorem print_inj {j j' : Json} (h : print j = print j') : j = j' := by
  have := parse_print j
  rw [h, parse_print j'] at this
  exact (Option.some.inj this).symm

end Backpak.Json
