import Verif.Spec.Near
import Verif.Props.C10

/-!
# Chunks as pieces of what remains of a file
-/

namespace Backpak.Pieces

open Chunk Spec

variable {Id : Type} {H : Bytes → Id} {cut : Bytes → Nat}

/-- The pieces that are cut from `r`. -/
def pieces (cut : Bytes → Nat) (r : Bytes) : List Bytes :=
  if _h : 0 < cut r ∧ cut r ≤ r.length then r.take (cut r) :: pieces cut (r.drop (cut r)) else []
termination_by r.length
decreasing_by simp; omega

def blob (H : Bytes → Id) (x : Bytes) : Blob Id := ⟨x, H x, .chunk⟩

theorem cuts_pieces (file : Bytes) (n : Nat) (r : Bytes) (hr : file.drop n = r) :
    (cuts cut n r).map (toBlob H file) = (pieces cut r).map (blob H) := by
  induction hlen : r.length using Nat.strong_induction_on generalizing n r with
  | _ k ih =>
    subst hlen
    rw [cuts, pieces]
    split
    · rename_i hcut
      rw [List.map_cons, List.map_cons, ih (r.drop (cut r)).length (by simp; omega) (n + cut r) _ (by
        rw [← hr, List.drop_drop, hr]) rfl]
      simp only [toBlob, hr, blob]
    · rfl

theorem chunkFile_eq (file : Bytes) : chunkFile H cut file = (pieces cut file).map (blob H) :=
  cuts_pieces file 0 file rfl

theorem flatMap_data (l : List Bytes) : ((l.map (blob H)).flatMap Blob.data) = l.flatten := by
  induction l with
  | nil => rfl
  | cons x l ih => simp only [List.map_cons, List.flatMap_cons, List.flatten_cons, ih]; rfl

theorem pieces_ne (hc : Contract cut) {r : Bytes} (h : r ≠ []) :
    pieces cut r = r.take (cut r) :: pieces cut (r.drop (cut r)) := by
  rw [pieces, dif_pos ⟨C10.cut_pos cut hc r h, hc.within r⟩]

theorem pieces_nil : pieces cut [] = [] := by
  rw [pieces, dif_neg]
  simp only [List.length_nil]
  omega

/-- The rest of the pieces are those of the rest. -/
theorem pieces_split (l l' : List Bytes) : ∀ r, pieces cut r = l ++ l' →
    pieces cut (r.drop l.flatten.length) = l' ∧ l.flatten = r.take l.flatten.length := by
  induction l with
  | nil => intro r h; simpa using h
  | cons x l ih =>
    intro r h
    rw [pieces] at h
    split at h
    · rename_i hcut
      rw [List.cons_append] at h
      obtain ⟨h1, h2⟩ := List.cons.inj h
      obtain ⟨g1, g2⟩ := ih _ h2
      have hx : x.length = cut r := by rw [← h1]; simp; omega
      rw [List.flatten_cons, List.length_append, hx]
      rw [List.drop_drop] at g1
      refine ⟨g1, ?_⟩
      rw [List.take_add, h1, ← g2]
    · cases h

/-- Two files that begin alike are cut alike, up to less than the largest size of a chunk before they
stop being alike. -/
theorem pieces_before (hc : Contract cut) (hl : LooksAhead cut) (r r' : Bytes) (n : Nat)
    (hn : n ≤ r.length) (hn' : n ≤ r'.length) (h : r.take n = r'.take n) :
    ∃ l a b, pieces cut r = l ++ a ∧ pieces cut r' = l ++ b ∧ l.flatten.length ≤ n ∧
      n < l.flatten.length + maxSize := by
  induction hlen : n using Nat.strong_induction_on generalizing r r' n with
  | _ k ih =>
    subst hlen
    by_cases hk : n < maxSize
    · exact ⟨[], _, _, rfl, rfl, by simp, by simpa using hk⟩
    · have hk : maxSize ≤ n := by omega
      have hpos : 0 < maxSize := by decide
      have hne : r ≠ [] := by rintro rfl; simp only [List.length_nil] at hn; omega
      have hne' : r' ≠ [] := by rintro rfl; simp only [List.length_nil] at hn'; omega
      have ht : ∀ m ≤ n, r.take m = r'.take m := by
        intro m hm
        have := congrArg (List.take m) h
        rwa [List.take_take, List.take_take, Nat.min_eq_left hm] at this
      have hcut : cut r' = cut r := hl _ _ (ht _ hk).symm
      have hle : cut r ≤ n := (hc.high r).trans hk
      have hcp := C10.cut_pos cut hc r hne
      obtain ⟨l, a, b, h1, h2, h3, h4⟩ := ih (n - cut r) (by omega) (r.drop (cut r)) (r'.drop (cut r))
        (n - cut r) (by simp; omega) (by simp; omega) (by
          rw [← List.drop_take, ← List.drop_take, h]) rfl
      refine ⟨r.take (cut r) :: l, a, b, ?_, ?_, ?_, ?_⟩
      · rw [pieces_ne hc hne, h1]; rfl
      · rw [pieces_ne hc hne', hcut, h2, ht _ hle]; rfl
      · rw [List.flatten_cons, List.length_append, List.length_take]; omega
      · rw [List.flatten_cons, List.length_append, List.length_take]; omega

theorem cutAt_iff (file : Bytes) (k : Nat) : CutAt H cut file k ↔
    ∃ l l', pieces cut file = l ++ l' ∧ l.flatten.length = k := by
  unfold CutAt
  rw [chunkFile_eq]
  constructor
  · rintro ⟨l, ⟨l', h⟩, h2⟩
    obtain ⟨a, b, h3, rfl, rfl⟩ := List.map_eq_append_iff.mp h.symm
    rw [flatMap_data] at h2
    exact ⟨a, b, h3, h2⟩
  · rintro ⟨l, l', h1, h2⟩
    refine ⟨l.map (blob H), ⟨l'.map (blob H), by rw [h1, List.map_append]⟩, ?_⟩
    rw [flatMap_data, h2]

theorem pieces_cut {file : Bytes} {k : Nat} (h : ∃ l l', pieces cut file = l ++ l' ∧ l.flatten.length = k) :
    ∃ l, pieces cut file = l ++ pieces cut (file.drop k) ∧ l.flatten = file.take k := by
  obtain ⟨l, l', h1, rfl⟩ := h
  obtain ⟨g1, g2⟩ := pieces_split l l' file h1
  exact ⟨l, by rw [g1, h1], g2⟩

theorem totalBytes_blob (l : List Bytes) : totalBytes (l.map (blob H)) = l.flatten.length := by
  unfold totalBytes
  induction l with
  | nil => rfl
  | cons x l ih =>
    simp only [List.map_cons, List.sum_cons, List.flatten_cons, List.length_append] at ih ⊢
    rw [ih]
    rfl

/-- Pieces are not empty. -/
theorem pieces_pos (r : Bytes) : ∀ x ∈ pieces cut r, x ≠ [] := by
  induction hlen : r.length using Nat.strong_induction_on generalizing r with
  | _ k ih =>
    subst hlen
    intro x hx
    rw [pieces] at hx
    split at hx
    · rename_i hcut
      rcases List.mem_cons.mp hx with rfl | hx
      · intro h0
        have := congrArg List.length h0
        rw [List.length_take, List.length_nil] at this
        omega
      · exact ih (r.drop (cut r)).length (by simp; omega) _ rfl x hx
    · cases hx

/-- Of two beginnings of a list of pieces, the one with fewer bytes begins the other. -/
theorem shorter {l a l' a' : List Bytes} (h : l ++ a = l' ++ a') (hp : ∀ x ∈ l ++ a, x ≠ [])
    (hle : l.flatten.length ≤ l'.flatten.length) : ∃ m, l' = l ++ m ∧ a = m ++ a' := by
  rcases List.append_eq_append_iff.mp h with ⟨m, h1, h2⟩ | ⟨m, h1, h2⟩
  · exact ⟨m, h1, h2⟩
  · cases m with
    | nil => exact ⟨[], by simp [h1], by simpa using h2.symm⟩
    | cons x m =>
      exfalso
      rw [h1] at hle hp
      have hx := hp x (by simp)
      have := List.length_pos_iff.mpr hx
      rw [List.flatten_append, List.flatten_cons, List.length_append, List.length_append] at hle
      omega

end Backpak.Pieces
