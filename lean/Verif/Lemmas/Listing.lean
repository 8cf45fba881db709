import Verif.Spec.Listing
import Verif.Spec.Path
import Verif.Lemmas.Walk

/-!
# Lists of entries
-/

namespace Backpak

open Spec

/-- An entry of a file tree with what is in it. -/
abbrev Ent2 := (Meta × Option (Leaf Bytes)) × Dir Bytes

/-- Only directories have something in them. -/
def norm : Option Ent2 → Option Ent2
  | some ((md, some l), _) => some ((md, some l), .nil)
  | o => o

theorem listing_nil : listing [] = .nil := rfl

theorem listing_cons (e : Name × Option Ent2) (l : List (Name × Option Ent2)) :
    listing (e :: l) = single e.1 e.2 (listing l) := rfl

theorem listing_one (n : Name) (o : Option Ent2) : listing [(n, o)] = single n o .nil := rfl

/-- A property of file trees that is one of each top-level entry holds of a list of entries iff of each. -/
theorem listing_all {P : Dir Bytes → Prop} (h0 : P .nil)
    (hl : ∀ n md l r, P (.leaf n md l r) ↔ P (.leaf n md l .nil) ∧ P r)
    (hd : ∀ n md s r, P (.dir n md s r) ↔ P (.dir n md s .nil) ∧ P r) (l : List (Name × Option Ent2)) :
    P (listing l) ↔ ∀ e ∈ l, P (single e.1 e.2 .nil) := by
  induction l with
  | nil => simpa [listing_nil] using h0
  | cons e l ih =>
    obtain ⟨n, o⟩ := e
    rw [listing_cons, List.forall_mem_cons, ← ih]
    rcases o with _ | ⟨⟨md, _ | lf⟩, sub⟩
    · simpa [single] using fun _ => h0
    · exact hd _ _ _ _
    · exact hl _ _ _ _

theorem listing_any {P : Dir Bytes → Prop} (h0 : ¬ P .nil)
    (hl : ∀ n md l r, P (.leaf n md l r) ↔ P (.leaf n md l .nil) ∨ P r)
    (hd : ∀ n md s r, P (.dir n md s r) ↔ P (.dir n md s .nil) ∨ P r) (l : List (Name × Option Ent2)) :
    P (listing l) ↔ ∃ e ∈ l, P (single e.1 e.2 .nil) := by
  have := listing_all (P := fun d => ¬ P d) h0 (fun n md l r => by rw [hl, not_or]) (fun n md s r => by rw [hd, not_or]) l
  constructor
  · intro h
    by_contra hc
    push Not at hc
    exact this.mpr hc h
  · rintro ⟨e, he, hp⟩
    by_contra hc
    exact this.mp hc e he hp

theorem plain_listing (l : List (Name × Option Ent2)) : Plain (listing l) ↔ ∀ e ∈ l, Plain (single e.1 e.2 .nil) :=
  listing_all trivial (fun _ _ _ _ => by simp [Plain]) (fun _ _ _ _ => by simp [Plain]) l

theorem kinds_listing (l : List (Name × Option Ent2)) :
    (listing l).KindsOk ↔ ∀ e ∈ l, (single e.1 e.2 .nil).KindsOk :=
  listing_all (P := Dir.KindsOk) trivial (fun _ _ l _ => by cases l <;> simp [Dir.KindsOk])
    (fun _ _ _ _ => by simp [Dir.KindsOk, and_assoc]) l

theorem subs_listing (l : List (Name × Option Ent2)) :
    SubsSorted (listing l) ↔ ∀ e ∈ l, SubsSorted (single e.1 e.2 .nil) :=
  listing_all trivial (fun _ _ _ _ => by simp [SubsSorted]) (fun _ _ _ _ => by simp [SubsSorted]) l

theorem fits_listing (l : List (Name × Option Ent2)) : Fits (listing l) ↔ ∀ e ∈ l, Fits (single e.1 e.2 .nil) :=
  listing_all trivial (fun _ _ _ _ => by simp [Fits, and_assoc]) (fun _ _ _ _ => by simp [Fits, and_assoc]) l

theorem faithful_listing (d0 : Dir Bytes) (l : List (Name × Option Ent2)) :
    Faithful d0 (listing l) ↔ ∀ e ∈ l, Faithful d0 (single e.1 e.2 .nil) :=
  listing_all (P := Faithful d0) trivial (fun _ _ _ _ => by simp only [Faithful, and_true])
    (fun _ _ _ _ => by simp only [Faithful, and_true]) l

theorem hasFile_listing (x : Bytes) (l : List (Name × Option Ent2)) :
    HasFile x (listing l) ↔ ∃ e ∈ l, HasFile x (single e.1 e.2 .nil) :=
  listing_any (P := HasFile x) (fun h => h) (fun _ _ _ _ => by simp [HasFile]) (fun _ _ _ _ => by simp [HasFile]) l

theorem subDir_listing (s : Dir Bytes) (l : List (Name × Option Ent2)) :
    SubDir s (listing l) ↔ ∃ e ∈ l, SubDir s (single e.1 e.2 .nil) :=
  listing_any (P := SubDir s) (fun h => h) (fun _ _ _ _ => by simp [SubDir]) (fun _ _ _ _ => by simp [SubDir, or_assoc]) l

/-- Names do not matter for what is in an entry. -/
theorem hasFile_single {x : Bytes} {n m : Name} {o : Option Ent2} :
    HasFile x (single n o .nil) ↔ HasFile x (single m o .nil) := by
  rcases o with _ | ⟨⟨md, _ | lf⟩, sub⟩ <;> exact Iff.rfl

theorem subDir_single {s : Dir Bytes} {n m : Name} {o : Option Ent2} :
    SubDir s (single n o .nil) ↔ SubDir s (single m o .nil) := by
  rcases o with _ | ⟨⟨md, _ | lf⟩, sub⟩ <;> exact Iff.rfl

theorem plain_single {n m : Name} {o : Option Ent2} : Plain (single n o .nil) ↔ Plain (single m o .nil) := by
  rcases o with _ | ⟨⟨md, _ | lf⟩, sub⟩ <;> exact Iff.rfl

theorem kinds_single {n m : Name} {o : Option Ent2} : (single n o .nil).KindsOk ↔ (single m o .nil).KindsOk := by
  rcases o with _ | ⟨⟨md, _ | lf⟩, sub⟩
  · exact Iff.rfl
  · exact Iff.rfl
  · cases lf <;> exact Iff.rfl

theorem subs_single {n m : Name} {o : Option Ent2} : SubsSorted (single n o .nil) ↔ SubsSorted (single m o .nil) := by
  rcases o with _ | ⟨⟨md, _ | lf⟩, sub⟩ <;> exact Iff.rfl

theorem fits_single {n m : Name} {o : Option Ent2} (hm : m.length < 2 ^ 64) (h : Fits (single n o .nil)) :
    Fits (single m o .nil) := by
  rcases o with _ | ⟨⟨md, _ | lf⟩, sub⟩
  · exact h
  · exact ⟨hm, h.2⟩
  · exact ⟨hm, h.2⟩

theorem fits_name {n : Name} {o : Option Ent2} (ho : o ≠ none) (h : Fits (single n o .nil)) : n.length < 2 ^ 64 := by
  rcases o with _ | ⟨⟨md, _ | lf⟩, sub⟩
  · exact absurd rfl ho
  · exact h.1
  · exact h.1

theorem faithful_nil (d : Dir Bytes) : Faithful .nil d := by
  induction d with
  | nil => trivial
  | leaf n md l r ih => exact ⟨fun x m x0 _ h => (by cases h), ih⟩
  | dir n md s r ihs ih => exact ⟨ihs, ih⟩

theorem fileAt_none {d : Dir Bytes} {n : Name} (h : n ∉ d.names) : fileAt d n = none := by
  induction d with
  | nil => rfl
  | leaf m md l r ih =>
    simp only [Dir.names, List.mem_cons, not_or] at h
    unfold fileAt
    rw [if_neg h.1, ih h.2]
  | dir m md s r _ ih =>
    simp only [Dir.names, List.mem_cons, not_or] at h
    unfold fileAt
    rw [if_neg h.1, ih h.2]

theorem subAt_nil {d : Dir Bytes} {n : Name} (h : n ∉ d.names) : subAt d n = .nil := by
  induction d with
  | nil => rfl
  | leaf m md l r ih =>
    simp only [Dir.names, List.mem_cons, not_or] at h
    unfold subAt
    rw [if_neg h.1, ih h.2]
  | dir m md s r _ ih =>
    simp only [Dir.names, List.mem_cons, not_or] at h
    unfold subAt
    rw [if_neg h.1, ih h.2]

/-- An entry under a name the first tree does not have. -/
theorem faithful_fresh {d0 : Dir Bytes} {n : Name} (h : n ∉ d0.names) (o : Option Ent2) :
    Faithful d0 (single n o .nil) := by
  rcases o with _ | ⟨⟨md, _ | lf⟩, sub⟩
  · trivial
  · refine ⟨?_, trivial⟩
    rw [subAt_nil h]
    exact faithful_nil _
  · exact ⟨(fun x m x0 _ he => by rw [fileAt_none h] at he; cases he), trivial⟩

theorem child_none {d : Dir Bytes} {n : Name} : child d n = none ↔ n ∉ d.names := by
  induction d with
  | nil => simp [child, Dir.names]
  | leaf m md l r ih =>
    simp only [child, Dir.names, List.mem_cons, not_or]
    by_cases h : n = m
    · simp [h]
    · simp [h, ih]
  | dir m md s r _ ih =>
    simp only [child, Dir.names, List.mem_cons, not_or]
    by_cases h : n = m
    · simp [h]
    · simp [h, ih]

theorem child_putLeaf (n m : Name) (md : Meta) (l : Leaf Bytes) (d : Dir Bytes) :
    child (d.putLeaf n md l) m = if m = n then some ((md, some l), .nil) else child d m := by
  induction d with
  | nil => simp [Dir.putLeaf, child]
  | leaf n' md' l' r ih =>
    unfold Dir.putLeaf
    split
    · simp only [child]
    · split
      · rename_i h1 h2
        subst h2
        simp only [child]
        split <;> simp_all
      · rename_i h1 h2
        simp only [child, ih]
        by_cases hm : m = n'
        · subst hm
          rw [if_pos rfl, if_neg (fun e => h2 e.symm), if_pos rfl]
        · simp [hm]
  | dir n' md' s r _ ih =>
    unfold Dir.putLeaf
    split
    · simp only [child]
    · split
      · rename_i h1 h2
        subst h2
        simp only [child]
        split <;> simp_all
      · rename_i h1 h2
        simp only [child, ih]
        by_cases hm : m = n'
        · subst hm
          rw [if_pos rfl, if_neg (fun e => h2 e.symm), if_pos rfl]
        · simp [hm]

theorem child_putDir (n m : Name) (md : Meta) (sub d : Dir Bytes) :
    child (Dir.putDir n md sub d) m = if m = n then some ((md, none), sub) else child d m := by
  induction d with
  | nil => simp [Dir.putDir, child]
  | leaf n' md' l' r ih =>
    unfold Dir.putDir
    split
    · simp only [child]
    · split
      · rename_i h1 h2
        subst h2
        simp only [child]
        split <;> simp_all
      · rename_i h1 h2
        simp only [child, ih]
        by_cases hm : m = n'
        · subst hm
          rw [if_pos rfl, if_neg (fun e => h2 e.symm), if_pos rfl]
        · simp [hm]
  | dir n' md' s r _ ih =>
    unfold Dir.putDir
    split
    · simp only [child]
    · split
      · rename_i h1 h2
        subst h2
        simp only [child]
        split <;> simp_all
      · rename_i h1 h2
        simp only [child, ih]
        by_cases hm : m = n'
        · subst hm
          rw [if_pos rfl, if_neg (fun e => h2 e.symm), if_pos rfl]
        · simp [hm]

theorem child_putAll (d : Dir Bytes) : ∀ acc : Dir Bytes, d.names.Nodup → ∀ m,
    child (putAll acc d) m = if m ∈ d.names then child d m else child acc m := by
  induction d with
  | nil => intro acc _ m; simp [putAll, Dir.names]
  | leaf n md l r ih =>
    intro acc hnd m
    obtain ⟨h1, h2⟩ := List.nodup_cons.mp hnd
    unfold putAll
    rw [ih _ h2, child_putLeaf]
    simp only [Dir.names, List.mem_cons, child]
    by_cases hm : m = n
    · subst hm; simp [h1]
    · simp [hm]
  | dir n md s r _ ih =>
    intro acc hnd m
    obtain ⟨h1, h2⟩ := List.nodup_cons.mp hnd
    unfold putAll
    rw [ih _ h2, child_putDir]
    simp only [Dir.names, List.mem_cons, child]
    by_cases hm : m = n
    · subst hm; simp [h1]
    · simp [hm]

theorem child_arrange {d : Dir Bytes} (h : d.names.Nodup) (m : Name) : child (arrange d) m = child d m := by
  unfold arrange
  rw [child_putAll d .nil h]
  split
  · rfl
  · rename_i hm; rw [child_none.mpr hm]; rfl

theorem names_putLeaf {n : Name} {md : Meta} {l : Leaf Bytes} {d : Dir Bytes} {m : Name} :
    m ∈ (d.putLeaf n md l).names ↔ m = n ∨ m ∈ d.names := by
  rw [← not_iff_not, ← child_none, child_putLeaf, not_or, ← child_none]
  by_cases h : m = n <;> simp [h]

theorem names_putDir {n : Name} {md : Meta} {s d : Dir Bytes} {m : Name} :
    m ∈ (Dir.putDir n md s d).names ↔ m = n ∨ m ∈ d.names := by
  rw [← not_iff_not, ← child_none, child_putDir, not_or, ← child_none]
  by_cases h : m = n <;> simp [h]

theorem sorted_putLeaf {n : Name} {md : Meta} {l : Leaf Bytes} {d : Dir Bytes} (h : d.Sorted) :
    (d.putLeaf n md l).Sorted := by
  induction d with
  | nil => exact ⟨(fun _ h => by cases h), trivial⟩
  | leaf n' md' l' r ih =>
    unfold Dir.putLeaf
    split
    · rename_i hlt
      refine ⟨fun m hm => ?_, h⟩
      rcases List.mem_cons.mp hm with rfl | hm
      · exact hlt
      · exact lt_trans hlt (h.1 m hm)
    · split
      · rename_i h2
        subst h2
        exact h
      · rename_i h1 h2
        refine ⟨fun m hm => ?_, ih h.2⟩
        rcases names_putLeaf.mp hm with rfl | hm
        · exact lt_of_le_of_ne (not_lt.mp h1) (fun e => h2 e.symm)
        · exact h.1 m hm
  | dir n' md' s r _ ih =>
    unfold Dir.putLeaf
    split
    · rename_i hlt
      refine ⟨fun m hm => ?_, h⟩
      rcases List.mem_cons.mp hm with rfl | hm
      · exact hlt
      · exact lt_trans hlt (h.1 m hm)
    · split
      · rename_i h2
        subst h2
        exact ⟨h.1, h.2.2⟩
      · rename_i h1 h2
        refine ⟨fun m hm => ?_, h.2.1, ih h.2.2⟩
        rcases names_putLeaf.mp hm with rfl | hm
        · exact lt_of_le_of_ne (not_lt.mp h1) (fun e => h2 e.symm)
        · exact h.1 m hm

theorem sorted_putDir {n : Name} {md : Meta} {sub d : Dir Bytes} (hs : sub.Sorted) (h : d.Sorted) :
    (Dir.putDir n md sub d).Sorted := by
  induction d with
  | nil => exact ⟨(fun _ h => by cases h), hs, trivial⟩
  | leaf n' md' l' r ih =>
    unfold Dir.putDir
    split
    · rename_i hlt
      refine ⟨fun m hm => ?_, hs, h⟩
      rcases List.mem_cons.mp hm with rfl | hm
      · exact hlt
      · exact lt_trans hlt (h.1 m hm)
    · split
      · rename_i h2
        subst h2
        exact ⟨h.1, hs, h.2⟩
      · rename_i h1 h2
        refine ⟨fun m hm => ?_, ih h.2⟩
        rcases names_putDir.mp hm with rfl | hm
        · exact lt_of_le_of_ne (not_lt.mp h1) (fun e => h2 e.symm)
        · exact h.1 m hm
  | dir n' md' s r _ ih =>
    unfold Dir.putDir
    split
    · rename_i hlt
      refine ⟨fun m hm => ?_, hs, h⟩
      rcases List.mem_cons.mp hm with rfl | hm
      · exact hlt
      · exact lt_trans hlt (h.1 m hm)
    · split
      · rename_i h2
        subst h2
        exact ⟨h.1, hs, h.2.2⟩
      · rename_i h1 h2
        refine ⟨fun m hm => ?_, h.2.1, ih h.2.2⟩
        rcases names_putDir.mp hm with rfl | hm
        · exact lt_of_le_of_ne (not_lt.mp h1) (fun e => h2 e.symm)
        · exact h.1 m hm

theorem sorted_putAll (d : Dir Bytes) (hd : SubsSorted d) : ∀ acc : Dir Bytes, acc.Sorted → (putAll acc d).Sorted := by
  induction d with
  | nil => intro acc h; exact h
  | leaf n md l r ih => intro acc h; exact ih hd _ (sorted_putLeaf h)
  | dir n md s r _ ih => intro acc h; exact ih hd.2 _ (sorted_putDir hd.1 h)

theorem sorted_arrange {d : Dir Bytes} (hd : SubsSorted d) : (arrange d).Sorted := sorted_putAll d hd .nil trivial

theorem names_listing (l : List (Name × Option Ent2)) : (listing l).names.Sublist (l.map Prod.fst) := by
  induction l with
  | nil => exact List.Sublist.slnil
  | cons e l ih =>
    obtain ⟨n, o⟩ := e
    rw [listing_cons, List.map_cons]
    rcases o with _ | ⟨⟨md, _ | lf⟩, sub⟩
    · exact ih.cons _
    · exact ih.cons_cons _
    · exact ih.cons_cons _

theorem child_listing {l : List (Name × Option Ent2)} (hnd : (l.map Prod.fst).Nodup) {n : Name} {o : Option Ent2}
    (h : (n, o) ∈ l) : child (listing l) n = norm o := by
  induction l with
  | nil => cases h
  | cons e l ih =>
    obtain ⟨h1, h2⟩ := List.nodup_cons.mp hnd
    obtain ⟨n', o'⟩ := e
    rw [listing_cons]
    rcases List.mem_cons.mp h with he | hin
    · cases he
      rcases o with _ | ⟨⟨md, _ | lf⟩, sub⟩
      · exact child_none.mpr (fun hm => h1 ((names_listing l).subset hm))
      · simp [single, child, norm]
      · simp [single, child, norm]
    · have hne : n ≠ n' := by
        rintro rfl
        exact h1 (List.mem_map.mpr ⟨_, hin, rfl⟩)
      rcases o' with _ | ⟨⟨md, _ | lf⟩, sub⟩
      · exact ih h2 hin
      · simp only [single, child, if_neg hne]; exact ih h2 hin
      · simp only [single, child, if_neg hne]; exact ih h2 hin

/-- Two lists with the same entries. -/
theorem child_same {l l' : List (Name × Option Ent2)} (hl : (l.map Prod.fst).Nodup) (hl' : (l'.map Prod.fst).Nodup)
    (h1 : ∀ e ∈ l', e ∈ l) (h2 : ∀ e ∈ l, e.2 ≠ none → e ∈ l') (n : Name) :
    child (listing l') n = child (listing l) n := by
  by_cases hn : n ∈ l.map Prod.fst
  · obtain ⟨⟨n', o⟩, he, rfl⟩ := List.mem_map.mp hn
    rw [child_listing hl he]
    by_cases ho : o = none
    · subst ho
      dsimp only
      by_cases hm : n' ∈ l'.map Prod.fst
      · obtain ⟨⟨n'', o'⟩, he', e⟩ := List.mem_map.mp hm
        dsimp only at e
        subst e
        have := child_listing hl (h1 _ he')
        rw [child_listing hl he] at this
        rw [child_listing hl' he', ← this]
      · exact child_none.mpr (fun h => hm ((names_listing l').subset h))
    · exact child_listing hl' (h2 _ he ho)
  · rw [child_none.mpr (fun h => hn ((names_listing l).subset h))]
    refine child_none.mpr (fun h => hn ?_)
    obtain ⟨e, he, rfl⟩ := List.mem_map.mp ((names_listing l').subset h)
    exact List.mem_map.mpr ⟨e, h1 e he, rfl⟩

end Backpak
