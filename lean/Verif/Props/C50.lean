import Verif.Model.Names
import Verif.Props.C01
import Mathlib.Data.List.Nodup

/-!
# C50 - Backend paths and IDs correspond
-/

namespace Backpak.C50

open Names

/-- Without the character there is nothing to split. -/
theorem split_free {c : UInt8} {s : Bytes} (h : c ∉ s) : split c s = [s] := by
  induction s with
  | nil => rfl
  | cons x s ih =>
    rw [List.mem_cons, not_or] at h
    unfold split
    rw [if_neg (Ne.symm h.1), ih h.2]

theorem split_at {c : UInt8} {s t : Bytes} (h : c ∉ s) : split c (s ++ c :: t) = s :: split c t := by
  induction s with
  | nil => simp [split]
  | cons x s ih =>
    rw [List.mem_cons, not_or] at h
    rw [List.cons_append, split, if_neg (Ne.symm h.1), ih h.2]

/-- A printed ID has neither dots nor slashes in it. -/
theorem plain (id : ObjectId) : (46 : UInt8) ∉ id.display ∧ (47 : UInt8) ∉ id.display := by
  have h := (C01.display_shape id).2
  refine ⟨fun hc => ?_, fun hc => ?_⟩
  · have := h _ hc; simp at this
  · have := h _ hc; simp at this

theorem display_ne_nil (id : ObjectId) : id.display ≠ [] := by
  intro h
  have := (C01.display_shape id).1
  rw [h] at this
  cases this

theorem fileName_plain {n : Bytes} (h : (47 : UInt8) ∉ n) (h1 : n ≠ []) (h2 : n ≠ [46]) (h3 : n ≠ [46, 46]) :
    fileName n = some n := by
  unfold fileName
  rw [split_free h]
  simp [h1, h2, h3]

theorem fileName_in {d n : Bytes} (hd : (47 : UInt8) ∉ d) (h : (47 : UInt8) ∉ n) (h1 : n ≠ []) (h2 : n ≠ [46])
    (h3 : n ≠ [46, 46]) : fileName (d ++ 47 :: n) = some n := by
  unfold fileName
  rw [split_at hd, split_free h]
  have : ((d :: [n]).filter (fun c => c ≠ [] ∧ c ≠ [46])).getLast? = some n := by
    rw [List.filter_cons]
    split <;> simp [h1, h2]
  rw [this]
  simp [h3]

theorem atDot_one {a b : Bytes} (ha : (46 : UInt8) ∉ a) (h0 : a ≠ []) (hb : (46 : UInt8) ∉ b) :
    atDot (a ++ 46 :: b) = (a, some b) := by
  unfold atDot
  rw [split_at ha, split_free hb]
  simp [List.intercalate, h0]

theorem ext_plain (k : Shelf) : (46 : UInt8) ∉ k.ext ∧ (47 : UInt8) ∉ k.ext := by cases k <;> decide

theorem dir_eq (k : Shelf) : ∃ d, k.dir = d ++ [47] ∧ (47 : UInt8) ∉ d := by
  cases k
  · exact ⟨ascii "packs", by decide, by decide⟩
  · exact ⟨ascii "indexes", by decide, by decide⟩
  · exact ⟨ascii "snapshots", by decide, by decide⟩

theorem name_facts (k : Shelf) (id : ObjectId) : (47 : UInt8) ∉ objectName k id ∧ objectName k id ≠ [] ∧
    objectName k id ≠ [46] ∧ objectName k id ≠ [46, 46] := by
  have hl := (C01.display_shape id).1
  have hlen : 45 < (objectName k id).length := by
    unfold objectName
    rw [List.length_append, hl, List.length_cons]
    omega
  refine ⟨?_, ?_, ?_, ?_⟩
  · unfold objectName
    rw [List.mem_append, List.mem_cons, not_or, not_or]
    exact ⟨(plain id).2, by decide, (ext_plain k).2⟩
  all_goals intro h; rw [h] at hlen; simp at hlen

/-- Every object has its place: in the directory of its kind, under its name. -/
theorem placed (k : Shelf) (id : ObjectId) : destination (objectName k id) = .ok (k.dir ++ objectName k id) := by
  obtain ⟨h1, h2, h3, h4⟩ := name_facts k id
  have : extension (objectName k id) = some k.ext := by
    unfold extension
    rw [fileName_plain h1 h2 h3 h4]
    simp only [Option.bind_some]
    unfold objectName
    rw [atDot_one (plain id).1 (display_ne_nil id) (ext_plain k).1]
  unfold destination
  rw [this]
  dsimp only
  cases k
  · rw [if_pos (by rfl)]; rfl
  · rw [if_neg (by decide), if_pos (by rfl)]; rfl
  · rw [if_neg (by decide), if_neg (by decide), if_pos (by rfl)]; rfl

/-- No two objects share a place, or a name in the cache. -/
theorem apart {k k' : Shelf} {id id' : ObjectId} (h : destination (objectName k id) = destination (objectName k' id')) :
    k = k' ∧ id = id' := by
  rw [placed, placed] at h
  injection h with h
  have hk : k = k' := by
    cases k <;> cases k' <;> first | rfl | (exfalso; revert h; simp [Shelf.dir, ascii]; done) | skip
    all_goals
      exfalso
      have := congrArg (List.take 2) h
      revert this
      decide
  subst hk
  refine ⟨rfl, C01.display_injective _ _ ?_⟩
  have := List.append_cancel_left h
  unfold objectName at this
  exact List.append_cancel_right this

theorem names_apart {k k' : Shelf} {id id' : ObjectId} (h : objectName k id = objectName k' id') : k = k' ∧ id = id' :=
  apart (congrArg destination h)

/-- The ID is read back from the place, and from the name. -/
theorem read_back (k : Shelf) (id : ObjectId) :
    idFromPath (k.dir ++ objectName k id) = .ok id ∧ idFromPath (objectName k id) = .ok id := by
  obtain ⟨h1, h2, h3, h4⟩ := name_facts k id
  obtain ⟨d, hd, hd'⟩ := dir_eq k
  have key : ∀ p, fileName p = some (objectName k id) → idFromPath p = .ok id := by
    intro p hp
    unfold idFromPath fileStem
    rw [hp]
    simp only [Option.map_some]
    unfold objectName
    rw [atDot_one (plain id).1 (display_ne_nil id) (ext_plain k).1]
    simp only [C01.parse_display]
  refine ⟨key _ ?_, key _ (fileName_plain h1 h2 h3 h4)⟩
  rw [hd, List.append_assoc, List.singleton_append]
  exact fileName_in hd' h1 h2 h3 h4

/-- Whatever name gives an ID, its stem is the text of the ID. -/
theorem only_ids {p : Bytes} {id : ObjectId} (h : idFromPath p = .ok id) : fileStem p = some id.display := by
  unfold idFromPath at h
  split at h
  · cases h
  · rename_i s hs
    split at h
    · cases h
    · rename_i id' hid
      cases h
      rw [hs, C01.parse_canonical _ _ hid]

/-- A pack is found in a list of distinct names exactly if its place is in it. -/
theorem probe {l : List (Bytes × Nat)} (hl : (l.map Prod.fst).Nodup) (id : ObjectId) :
    probePack l id = .ok () ↔ Shelf.pack.dir ++ objectName .pack id ∈ l.map Prod.fst := by
  have he : ascii "packs/" ++ (id.display ++ ascii ".pack") = Shelf.pack.dir ++ objectName .pack id := rfl
  unfold probePack
  rw [he]
  generalize Shelf.pack.dir ++ objectName .pack id = n
  generalize l.map Prod.fst = names at hl
  by_cases hn : n ∈ names
  · have : (names.filter (fun s => s = n)).length = 1 := by
      rw [← List.countP_eq_length_filter]
      have := List.count_eq_one_of_mem hl hn
      unfold List.count at this
      rw [← this]
      congr 1
      funext s
      rw [Bool.eq_iff_iff]
      simp
    rw [this]
    simp [hn]
  · have : (names.filter (fun s => s = n)) = [] := by
      rw [List.filter_eq_nil_iff]
      intro a ha
      simp only [decide_eq_true_eq]
      rintro rfl
      exact hn ha
    rw [this]
    simp [hn]

/-- For example. -/
example : destination (objectName .index C01.sampleId) =
      .ok (ascii "indexes/000g40o40k30e209185go38e1s8124gj2gahc5oo34d1m.index") ∧
    idFromPath (ascii "indexes/000g40o40k30e209185go38e1s8124gj2gahc5oo34d1m.index") = .ok C01.sampleId := by
  decide +kernel

example : (idFromPath (ascii "packs/readme.txt")).toOption = none ∧
    idFromPath (ascii "snapshots/") = .error (.err "Couldn't decode ID") := by decide +kernel

example : probePack [(ascii "packs/000g40o40k30e209185go38e1s8124gj2gahc5oo34d1m.pack", 7), (ascii "packs/x", 1)]
    C01.sampleId = .ok () := by decide +kernel

end Backpak.C50
