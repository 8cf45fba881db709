import Verif.Model.Truncate

/-!
# C77: a path that is shown fits the line and ends as the path does
-/

namespace Backpak.C77

open Shown

variable {γ : Type} {dot : γ} {syms back : List γ} {w : Nat}

/-- A path that fits is shown whole. -/
theorem whole {checked : Bool} {name : Option (List γ)} (hw : 3 < w) (h : syms.length ≤ w) :
    truncate dot checked syms name w = .ok syms := by
  unfold truncate
  rw [if_neg (by omega), if_pos h]

/-- One that does not fit is cut to the width, with the end of its file name last: all of it if there is room for it
and the dots, and as much as there is room for otherwise. In a release build nothing panics. -/
theorem fits (hw : 3 < w) (h : w < syms.length) (hb : back.length < 2 ^ 64) (hm : w < 2 ^ 64) :
    ∃ r, truncate dot false syms (some back) w = .ok r ∧ r.length = w ∧
      ∃ front, r = front ++ [dot, dot, dot] ++ back.drop (back.length - (w - 3)) ∧ front <+: syms ∧
        (w - 3 ≤ back.length → front = []) := by
  unfold truncate
  rw [if_neg (by omega), if_neg (by omega)]
  dsimp only
  by_cases hc : w - 3 ≤ back.length
  · rw [if_pos hc]
    have key : ∃ k, usub false back.length w = .ok k ∧ uadd false k 3 = .ok (back.length - (w - 3)) := by
      unfold usub uadd
      by_cases h1 : w ≤ back.length
      · refine ⟨back.length - w, if_pos h1, ?_⟩
        rw [if_pos (by omega)]
        congr 1
        omega
      · refine ⟨back.length + 2 ^ 64 - w, by rw [if_neg h1]; rfl, ?_⟩
        rw [if_neg (by omega)]
        simp only [Bool.false_eq_true, if_false]
        congr 1
        omega
    obtain ⟨k, k1, k2⟩ := key
    rw [k1]
    dsimp only
    rw [k2]
    dsimp only [sliceFrom]
    rw [if_pos (Nat.sub_le _ _)]
    refine ⟨_, rfl, ?_, [], rfl, List.nil_prefix, fun _ => rfl⟩
    simp only [List.length_append, List.length_cons, List.length_nil, List.length_drop]
    omega
  · rw [if_neg hc]
    unfold sliceTo
    rw [if_pos (by omega)]
    refine ⟨_, rfl, ?_, syms.take (w - back.length - 3), ?_, List.take_prefix _ _, fun h => absurd h hc⟩
    · simp only [List.length_append, List.length_cons, List.length_nil, List.length_take]
      omega
    · have : back.length - (w - 3) = 0 := by omega
      rw [this, List.drop_zero]

/-- Nothing wider than the terminal is ever shown, whatever the path. -/
theorem never_wider {checked : Bool} {name : Option (List γ)} {r : List γ} (hm : w < 2 ^ 64)
    (hb : ∀ b, name = some b → b.length < 2 ^ 64) (h : truncate dot checked syms name w = .ok r) : r.length ≤ w := by
  have hsub : ∀ {a b k : Nat}, usub checked a b = .ok k → usub false a b = .ok k := by
    intro a b k h
    unfold usub at h ⊢
    split at h
    · rw [if_pos ‹_›]; exact h
    · rw [if_neg ‹_›]
      split at h
      · cases h
      · exact h
  have hadd : ∀ {a b k : Nat}, uadd checked a b = .ok k → uadd false a b = .ok k := by
    intro a b k h
    unfold uadd at h ⊢
    split at h
    · rw [if_pos ‹_›]; exact h
    · rw [if_neg ‹_›]
      split at h
      · cases h
      · exact h
  by_cases h1 : w ≤ 3
  · unfold truncate at h
    rw [if_pos h1] at h
    cases h
    simp
  by_cases h2 : syms.length ≤ w
  · rw [whole (by omega) h2] at h
    cases h
    exact h2
  cases name with
  | none =>
    unfold truncate at h
    rw [if_neg h1, if_neg h2] at h
    cases h
  | some back =>
    obtain ⟨r', g1, g2, _⟩ := fits (dot := dot) (syms := syms) (back := back) (by omega) (by omega) (hb back rfl) hm
    have : truncate dot false syms (some back) w = .ok r := by
      unfold truncate at h ⊢
      rw [if_neg h1, if_neg h2] at h ⊢
      dsimp only at h ⊢
      split at h
      · rw [if_pos ‹_›]
        split at h
        · cases h
        · rename_i k hk
          rw [hsub hk]
          dsimp only at h ⊢
          split at h
          · cases h
          · rename_i k' hk'
            rw [hadd hk']
            exact h
      · rw [if_neg ‹_›]
        exact h
    rw [g1] at this
    cases this
    omega

/-- A build that checks its arithmetic panics for names of certain lengths: those that do not fit with the dots but
would fit without, and for paths without a file name. -/
theorem checked_panics_iff {name : Option (List γ)} (hw : 3 < w) (h : w < syms.length)
    (hb : ∀ b, name = some b → b.length < 2 ^ 64) (hm : w < 2 ^ 64) :
    (∃ msg, truncate dot true syms name w = .error (.panic msg)) ↔
      ∀ back, name = some back → w - 3 ≤ back.length ∧ back.length < w := by
  cases name with
  | none =>
    unfold truncate
    rw [if_neg (by omega), if_neg (by omega)]
    simp
  | some back =>
    have hbb := hb back rfl
    unfold truncate
    rw [if_neg (by omega), if_neg (by omega)]
    dsimp only
    constructor
    · rintro ⟨msg, hp⟩ b e
      cases e
      split at hp
      · refine ⟨by assumption, ?_⟩
        by_contra hge
        have h1 : usub true back.length w = .ok (back.length - w) := if_pos (by omega)
        have h2 : uadd true (back.length - w) 3 = .ok (back.length - w + 3) := if_pos (by omega)
        simp only [h1, h2, sliceFrom] at hp
        rw [if_pos (by omega)] at hp
        cases hp
      · unfold sliceTo at hp
        rw [if_pos (by omega)] at hp
        cases hp
    · intro hc
      obtain ⟨c1, c2⟩ := hc back rfl
      rw [if_pos c1]
      have : usub true back.length w = .error (.panic "attempt to subtract with overflow") := by
        unfold usub
        rw [if_neg (by omega)]
        rfl
      rw [this]
      exact ⟨_, rfl⟩

/-- A line of ten: a short name, a long one, and one of eight, which panics unless the build is for release. -/
example : truncate '.' false "/home/x/abc/de.txt".toList (some "de.txt".toList) 10 = .ok "/...de.txt".toList ∧
    truncate '.' false "/home/abcdefghijkl".toList (some "abcdefghijkl".toList) 10 = .ok "...fghijkl".toList ∧
    truncate '.' false "/home/x/abcd.txt".toList (some "abcd.txt".toList) 10 = .ok "...bcd.txt".toList ∧
    truncate '.' true "/home/x/abcd.txt".toList (some "abcd.txt".toList) 10 =
      .error (.panic "attempt to subtract with overflow") := by
  decide +kernel

end Backpak.C77
