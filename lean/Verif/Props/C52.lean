import Verif.Props.C51

/-!
# C52. Transient B2 failures are retried to success
-/

namespace Backpak.C52

open B2

variable (sha : Bytes → Bytes)

theorem put_short (hsha : ∀ x, (sha x).length = 40) {len : Nat} (net : Net) {rest : Bytes}
    (h : rest.length < len) : (put sha len net rest).1 = false ∧ (put sha len net rest).2.1 = none ∧
      (put sha len net rest).2.2.length < len := by
  have hs : (put sha len net rest).2.1 = none := by
    cases hp : (put sha len net rest).2.1 with
    | none => rfl
    | some y =>
      obtain ⟨h1, h2, _⟩ := C51.put_never_pads sha hsha len net rest y hp
      have := h2.length_le
      omega
  refine ⟨?_, hs, ?_⟩
  · cases net with
    | cut k => rfl
    | fine =>
      simp only [put] at hs ⊢
      rw [hs]; rfl
    | lost =>
      simp only [put] at hs ⊢
      rw [hs]; rfl
  · cases net <;> simp [put] <;> omega

/-- Once part of the contents has been read by a failed attempt, no later attempt succeeds or stores anything. -/
theorem short_stuck (hsha : ∀ x, (sha x).length = 40) {len : Nat} (net : Nat → Net) (fuel i : Nat) {rest : Bytes}
    (h : rest.length < len) : upload sha len net fuel i rest = (false, []) := by
  induction fuel generalizing i rest with
  | zero => rfl
  | succ fuel ih =>
    obtain ⟨h1, h2, h3⟩ := put_short sha hsha (net i) h
    simp only [upload, h1, Bool.false_eq_true, if_false, h2, Option.toList_none, List.nil_append, ih (i + 1) h3]

theorem not_fine (hsha : ∀ x, (sha x).length = 40) {x : Bytes} {net : Net} (h : net ≠ .fine) :
    (put sha x.length net x).1 = false := by
  cases net with
  | fine => exact absurd rfl h
  | lost => simp [put]
  | cut k => rfl

theorem upload_step (hsha : ∀ x, (sha x).length = 40) (x : Bytes) (net : Nat → Net) (fuel i : Nat) :
    upload sha x.length net (fuel + 1) i x =
      match net i with
      | .fine => (true, [x])
      | .cut k => upload sha x.length net fuel (i + 1) (x.drop (min k (x.length + 40)))
      | .lost => ((upload sha x.length net fuel (i + 1) []).1, x :: (upload sha x.length net fuel (i + 1) []).2) := by
  have hb : (x ++ sha x).take (x.length + 40) = x ++ sha x := List.take_of_length_le (by simp [hsha])
  rw [upload]
  cases hn : net i with
  | fine => simp [(C51.put_stores sha hsha x .fine).1]
  | cut k => simp [put]
  | lost => simp [put, hb, hsha, List.drop_eq_nil_of_le (show x.length ≤ x.length + 40 by omega)]

/-- Whatever goes wrong, nothing but the whole contents is ever stored. -/
theorem never_wrong (hsha : ∀ x, (sha x).length = 40) (x : Bytes) (net : Nat → Net) (fuel : Nat) :
    (∀ y ∈ (upload sha x.length net fuel 0 x).2, y = x) ∧
    ((upload sha x.length net fuel 0 x).1 = true → x ∈ (upload sha x.length net fuel 0 x).2) := by
  have key : ∀ fuel i, (∀ y ∈ (upload sha x.length net fuel i x).2, y = x) ∧
      ((upload sha x.length net fuel i x).1 = true → x ∈ (upload sha x.length net fuel i x).2) := by
    intro fuel
    induction fuel with
    | zero => intro i; simp [upload]
    | succ fuel ih =>
      intro i
      rw [upload_step sha hsha]
      cases hn : net i with
      | fine => simp
      | cut k =>
        dsimp only
        by_cases h0 : x.drop (min k (x.length + 40)) = x
        · rw [h0]; exact ih (i + 1)
        · rw [short_stuck sha hsha]
          · simp
          · by_contra hc
            apply h0
            rw [List.length_drop] at hc
            have hz : min k (x.length + 40) = 0 ∨ x.length = 0 := by omega
            rcases hz with hz | hz
            · rw [hz]; rfl
            · rw [List.length_eq_zero_iff] at hz; subst hz; simp
      | lost =>
        dsimp only
        by_cases h0 : x = []
        · subst h0
          exact ⟨fun y hy => by
            rcases List.mem_cons.mp hy with h | h
            · exact h
            · exact (ih (i + 1)).1 y h, fun _ => by simp⟩
        · rw [short_stuck sha hsha _ _ _ (List.length_pos_of_ne_nil h0)]
          simp
  exact key fuel 0

/-- An upload of anything but nothing returns exactly if it comes to an attempt that nothing goes wrong with
before any of the contents has been read by one that fails. -/
theorem returns_iff (hsha : ∀ x, (sha x).length = 40) {x : Bytes} (hx : x ≠ []) (net : Nat → Net) (fuel : Nat) :
    (upload sha x.length net fuel 0 x).1 = true ↔ ∃ n < fuel, net n = .fine ∧ ∀ i < n, net i = .cut 0 := by
  have hpos := List.length_pos_of_ne_nil hx
  have key : ∀ fuel i, (upload sha x.length net fuel i x).1 = true ↔
      ∃ n < fuel, net (i + n) = .fine ∧ ∀ j < n, net (i + j) = .cut 0 := by
    intro fuel
    induction fuel with
    | zero => intro i; simp [upload]
    | succ fuel ih =>
      intro i
      rw [upload_step sha hsha]
      have step : (∃ n < fuel + 1, net (i + n) = .fine ∧ ∀ j < n, net (i + j) = .cut 0) ↔
          net i = .fine ∨ net i = .cut 0 ∧ ∃ n < fuel, net (i + 1 + n) = .fine ∧ ∀ j < n, net (i + 1 + j) = .cut 0 := by
        constructor
        · rintro ⟨n, h1, h2, h3⟩
          cases n with
          | zero => exact .inl h2
          | succ n =>
            refine .inr ⟨h3 0 (by omega), n, by omega, by rw [← h2]; congr 1; omega, fun j hj => ?_⟩
            rw [← h3 (j + 1) (by omega)]; congr 1; omega
        · rintro (h | ⟨h, n, h1, h2, h3⟩)
          · exact ⟨0, by omega, h, by omega⟩
          · refine ⟨n + 1, by omega, by rw [← h2]; congr 1; omega, fun j hj => ?_⟩
            cases j with
            | zero => exact h
            | succ j => rw [← h3 j (by omega)]; congr 1; omega
      rw [step, ← ih]
      cases hn : net i with
      | fine => simp
      | cut k =>
        dsimp only
        by_cases hk : k = 0
        · subst hk; simp
        · rw [short_stuck sha hsha]
          · simp [hk]
          · rw [List.length_drop]; omega
      | lost =>
        dsimp only
        rw [short_stuck sha hsha _ _ _ hpos]
        simp
  simpa using key fuel 0

/-- Failures that come before any of the contents has been read are retried to success. -/
theorem retried_partial (hsha : ∀ x, (sha x).length = 40) (x : Bytes) (net : Nat → Net) (n : Nat)
    (hn : net n = .fine) (hb : ∀ i < n, net i = .cut 0) : upload sha x.length net (n + 1) 0 x = (true, [x]) := by
  have key : ∀ m i, net (i + m) = .fine → (∀ j < m, net (i + j) = .cut 0) →
      upload sha x.length net (m + 1) i x = (true, [x]) := by
    intro m
    induction m with
    | zero => intro i h _; rw [upload_step sha hsha, show net i = .fine from h]
    | succ m ih =>
      intro i h1 h2
      rw [upload_step sha hsha, show net i = .cut 0 from h2 0 (by omega)]
      simp only [Nat.zero_min, List.drop_zero]
      refine ih (i + 1) (by rw [← h1]; congr 1; omega) (fun j hj => ?_)
      rw [← h2 (j + 1) (by omega)]; congr 1; omega
  exact key n 0 (by simpa using hn) (by simpa using hb)

/-- One failure after the first byte, and the upload goes on forever although the service works perfectly from
then on. The same if only the answer to a complete upload is lost. -/
theorem stuck_after_one (hsha : ∀ x, (sha x).length = 40) {x : Bytes} (hx : x ≠ []) (fuel : Nat) :
    (∀ k, 0 < k → (upload sha x.length (fun i => if i = 0 then .cut k else .fine) fuel 0 x) = (false, [])) ∧
    (upload sha x.length (fun i => if i = 0 then .lost else .fine) fuel 0 x).1 = false := by
  have hpos := List.length_pos_of_ne_nil hx
  constructor
  · intro k hk
    cases fuel with
    | zero => rfl
    | succ fuel =>
      rw [upload_step sha hsha]
      simp only [if_true]
      exact short_stuck sha hsha _ _ _ (by rw [List.length_drop]; omega)
  · cases fuel with
    | zero => rfl
    | succ fuel =>
      rw [upload_step sha hsha]
      simp only [if_true]
      rw [short_stuck sha hsha _ _ _ hpos]

/-- Two early failures, then success. -/
example : upload C51.toySha 3 (fun i => if i < 2 then .cut 0 else .fine) 5 0 [7, 8, 9] = (true, [[7, 8, 9]]) := by
  decide +kernel

/-- Reading, listing and deleting, which start afresh each time, are retried to success if they can succeed, and
forever if they cannot: there is no error after which `retry` gives up. -/
theorem afresh {A : Type} (up : Nat → Bool) (op : Option A) (fuel : Nat) (a : A) :
    retried up op fuel 0 = some a ↔ op = some a ∧ ∃ n < fuel, up n = true := by
  have key : ∀ fuel i, retried up op fuel i = some a ↔ op = some a ∧ ∃ n < fuel, up (i + n) = true := by
    intro fuel
    induction fuel with
    | zero => intro i; simp [retried]
    | succ fuel ih =>
      intro i
      have step : (∃ n < fuel + 1, up (i + n) = true) ↔ up i = true ∨ ∃ n < fuel, up (i + 1 + n) = true := by
        constructor
        · rintro ⟨n, h1, h2⟩
          cases n with
          | zero => exact .inl h2
          | succ n => exact .inr ⟨n, by omega, by rw [← h2]; congr 1; omega⟩
        · rintro (h | ⟨n, h1, h2⟩)
          · exact ⟨0, by omega, h⟩
          · exact ⟨n + 1, by omega, by rw [← h2]; congr 1; omega⟩
      rw [step, retried.eq_def]
      dsimp only
      by_cases hu : up i = true
      · rw [if_pos hu]
        cases op with
        | none => dsimp only; rw [ih]; simp
        | some b => simp [hu]
      · rw [if_neg hu, ih]; simp [hu]
  simpa using key fuel 0

example : retried (fun i => decide (i = 3)) (some 7) 5 0 = some 7 := by decide

end Backpak.C52
