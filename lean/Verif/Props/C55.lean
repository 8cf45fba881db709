import Verif.Props.C52

/-!
# C55. An object removed from B2 is gone

B2 keeps every version of a file that is uploaded again under the same name.
-/

namespace Backpak.C55

open B2

/-- A removal that succeeds has removed that file and nothing else. -/
theorem removes {B B' : List Version} {name : Name} (h : delete B name = some B') :
    (∀ v ∈ B', v.name ≠ name) ∧ ∀ v, v.name ≠ name → (v ∈ B' ↔ v ∈ B) := by
  unfold delete at h
  split at h
  · rename_i v hv
    split at h
    · rename_i hn
      simp only [Option.some.injEq] at h
      subst h
      refine ⟨fun w hw he => ?_, fun w hw => ?_⟩
      · simp only [List.mem_filter, decide_eq_true_eq] at hw
        have : w ∈ B.filter fun v => name.isPrefixOf v.name := by
          rw [List.mem_filter, he]
          exact ⟨hw.1, by rw [List.isPrefixOf_iff_prefix]; exact List.prefix_refl _⟩
        rw [hv, List.mem_singleton] at this
        exact hw.2 this
      · simp only [List.mem_filter, decide_eq_true_eq, and_iff_left_iff_imp]
        rintro _ rfl
        exact hw hn
    · simp at h
  · simp at h

/-- It can succeed exactly if the file was uploaded once, and no other file's name begins with its name. -/
theorem can_iff (B : List Version) (name : Name) : (∃ B', delete B name = some B') ↔
    ∃ v, v.name = name ∧ (B.filter fun v => name.isPrefixOf v.name) = [v] := by
  unfold delete
  constructor
  · rintro ⟨B', h⟩
    split at h
    · rename_i v hv
      split at h
      · rename_i hn
        exact ⟨v, hn, hv⟩
      · simp at h
    · simp at h
  · rintro ⟨v, hn, hv⟩
    rw [hv]
    simp [hn]

/-- If it can succeed it does as soon as the service answers; otherwise it is tried forever. -/
theorem ends_iff_partial (up : Nat → Bool) (B : List Version) (name : Name) (fuel : Nat) :
    (∃ B', retried up (delete B name) fuel 0 = some B') ↔
      (∃ v, v.name = name ∧ (B.filter fun v => name.isPrefixOf v.name) = [v]) ∧ ∃ n < fuel, up n = true := by
  rw [← can_iff]
  simp only [C52.afresh]
  constructor
  · rintro ⟨B', h1, h2⟩; exact ⟨⟨B', h1⟩, h2⟩
  · rintro ⟨⟨B', h1⟩, h2⟩; exact ⟨B', h1, h2⟩

/-- An object that was uploaded twice (a resumed backup uploads packs again whose upload it cannot know to have
finished) is never removed, and the command removing it never ends. -/
theorem uploaded_twice (up : Nat → Bool) (B : List Version) (v w : Version) (hv : v ∈ B) (hw : w ∈ B)
    (hn : v.name = w.name) (hne : v ≠ w) (fuel : Nat) : retried up (delete B v.name) fuel 0 = none := by
  cases h : retried up (delete B v.name) fuel 0 with
  | none => rfl
  | some B' =>
    exfalso
    obtain ⟨⟨u, _, hu⟩, _⟩ := (ends_iff_partial up B v.name fuel).mp ⟨B', h⟩
    have mem : ∀ x ∈ B, x.name = v.name → x = u := by
      intro x hx he
      have : x ∈ B.filter fun a => v.name.isPrefixOf a.name := by
        rw [List.mem_filter, he]
        exact ⟨hx, by rw [List.isPrefixOf_iff_prefix]; exact List.prefix_refl _⟩
      rw [hu, List.mem_singleton] at this
      exact this
    exact hne ((mem v hv rfl).trans (mem w hw hn.symm).symm)

/-- Three files, one of them uploaded twice. -/
def bucket : List Version := [⟨[1], 10⟩, ⟨[2], 11⟩, ⟨[2], 12⟩, ⟨[3], 13⟩]

example : delete bucket [1] = some [⟨[2], 11⟩, ⟨[2], 12⟩, ⟨[3], 13⟩] ∧ delete bucket [2] = none := by decide

end Backpak.C55
