import Verif.Model.Chunk

/-!
# C10 - Chunks concatenate to the file
-/

namespace Backpak.C10

open Chunk

variable {Id : Type} (H : Bytes → Id) (cut : Bytes → Nat)

/-- The bytes of a file a cut stands for. -/
def span (file : Bytes) (c : Cut) : Bytes := (file.drop c.offset).take c.length

theorem cut_pos (hc : Contract cut) (r : Bytes) (h : r ≠ []) : 0 < cut r := by
  have hl : 0 < r.length := List.length_pos_iff.mpr h
  by_cases hm : r.length ≤ minSize
  · rw [hc.small r hm]; exact hl
  · have := hc.low r (by omega)
    have : 0 < minSize := by decide
    omega

theorem cuts_spec (hc : Contract cut) (file : Bytes) (n : Nat) (r : Bytes) (hr : file.drop n = r) :
    ((cuts cut n r).map (span file)).flatten = r ∧
    (∀ c ∈ cuts cut n r, 0 < (span file c).length ∧ (span file c).length ≤ maxSize ∧
      (span file c).length = c.length) ∧
    (∀ pre c c' post, cuts cut n r = pre ++ c :: c' :: post → minSize ≤ (span file c).length) := by
  induction hlen : r.length using Nat.strong_induction_on generalizing n r with
  | _ k ih =>
    subst hlen
    rw [cuts]
    split
    · rename_i hcut
      have hd : file.drop (n + cut r) = r.drop (cut r) := by
        rw [← hr, List.drop_drop, hr]
      obtain ⟨h1, h2, h3⟩ := ih (r.drop (cut r)).length (by simp; omega) (n + cut r) _ hd rfl
      have hspan : span file ⟨n, cut r⟩ = r.take (cut r) := by unfold span; simp only [hr]
      have hslen : (span file ⟨n, cut r⟩).length = cut r := by rw [hspan]; simp; omega
      refine ⟨?_, ?_, ?_⟩
      · rw [List.map_cons, List.flatten_cons, h1, hspan, List.take_append_drop]
      · intro c hm
        rcases List.mem_cons.mp hm with rfl | hm
        · rw [hslen]; exact ⟨hcut.1, hc.high r, rfl⟩
        · exact h2 c hm
      · intro pre c c' post he
        cases pre with
        | nil =>
          simp only [List.nil_append, List.cons.injEq] at he
          obtain ⟨rfl, he⟩ := he
          rw [hslen]
          have hne : r.drop (cut r) ≠ [] := by
            intro h0
            rw [h0, cuts] at he
            simp only [List.length_nil, Nat.le_zero] at he
            rw [dif_neg (by omega)] at he
            simp at he
          by_cases hm : r.length ≤ minSize
          · rw [hc.small r hm] at hne; simp at hne
          · exact hc.low r (by omega)
        | cons x pre =>
          simp only [List.cons_append, List.cons.injEq] at he
          exact h3 pre c c' post he.2
    · rename_i hcut
      have : r = [] := by
        by_contra h
        exact hcut ⟨cut_pos cut hc r h, hc.within r⟩
      subst this
      simp

/-- Concatenating a file's chunks in order gives the file's bytes. -/
theorem chunks_concat (hc : Contract cut) (file : Bytes) :
    ((chunkFile H cut file).map Blob.data).flatten = file := by
  have := (cuts_spec cut hc file 0 file rfl).1
  unfold chunkFile
  rw [List.map_map]
  exact this

/-- Every chunk is non-empty, no larger than the maximum, and has the hash of its bytes as ID. -/
theorem chunk_bounds (hc : Contract cut) (file : Bytes) (b : Blob Id) (hb : b ∈ chunkFile H cut file) :
    b.data ≠ [] ∧ b.data.length ≤ 8 * 1024 * 1024 ∧ b.id = H b.data ∧ b.kind = .chunk := by
  unfold chunkFile at hb
  obtain ⟨c, hm, rfl⟩ := List.mem_map.mp hb
  obtain ⟨h1, h2, _⟩ := (cuts_spec cut hc file 0 file rfl).2.1 c hm
  exact ⟨List.ne_nil_of_length_pos h1, h2, rfl, rfl⟩

/-- Every chunk but the last has at least the minimum size. -/
theorem chunk_minimum (hc : Contract cut) (file : Bytes) (pre post : List (Blob Id)) (b : Blob Id)
    (h : chunkFile H cut file = pre ++ b :: post) (hp : post ≠ []) : 512 * 1024 ≤ b.data.length := by
  unfold chunkFile at h
  cases post with
  | nil => exact absurd rfl hp
  | cons b' post =>
    obtain ⟨l1, l2, e1, e2, e3⟩ := List.map_eq_append_iff.mp h
    obtain ⟨c, l3, rfl, e4, e5⟩ := List.map_eq_cons_iff.mp e3
    obtain ⟨c', l4, rfl, e6, e7⟩ := List.map_eq_cons_iff.mp e5
    have := (cuts_spec cut hc file 0 file rfl).2.2 l1 c c' l4 e1
    rw [← e4]
    exact this

/-- An empty file has no chunks. -/
theorem empty_file (hc : Contract cut) : chunkFile H cut [] = [] := by
  cases h : chunkFile H cut [] with
  | nil => rfl
  | cons b l =>
    have h1 := chunks_concat H cut hc []
    have h2 := (chunk_bounds H cut hc [] b (by rw [h]; simp)).1
    rw [h] at h1
    simp at h1
    exact absurd h1.1 h2

/-- The contract is met by the cutter that always cuts at the maximum. -/
example : Contract (fun r => min r.length maxSize) where
  small r h := by
    have : minSize ≤ maxSize := by decide
    exact min_eq_left (by omega)
  low r h := by
    have : minSize ≤ maxSize := by decide
    exact le_min (by omega) this
  high r := min_le_right _ _
  within r := min_le_left _ _

end Backpak.C10
