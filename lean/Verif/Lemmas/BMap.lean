import Verif.Model.Basic

/-! Lemmas about the ordered maps and sets of `Verif.Model.Basic`. -/

namespace Backpak

namespace BMap
variable {K V : Type _}

@[simp] theorem get?_nil [DecidableEq K] (k : K) : get? ([] : BMap K V) k = none := rfl

theorem get?_cons [DecidableEq K] (k' : K) (v : V) (m : BMap K V) (k : K) :
    get? ((k', v) :: m) k = if k' = k then some v else get? m k := rfl

theorem mem_of_get? [DecidableEq K] {m : BMap K V} {k : K} {v : V}
    (h : get? m k = some v) : (k, v) ∈ m := by
  induction m with
  | nil => simp at h
  | cons e m ih =>
    obtain ⟨k', v'⟩ := e
    rw [get?_cons] at h
    split at h
    · rename_i hk; subst hk; simp at h; subst h; simp
    · exact List.mem_cons_of_mem _ (ih h)

theorem get?_eq_none_iff [DecidableEq K] {m : BMap K V} {k : K} :
    get? m k = none ↔ k ∉ keys m := by
  induction m with
  | nil => simp [keys]
  | cons e m ih =>
    obtain ⟨k', v'⟩ := e
    rw [get?_cons]
    by_cases h : k' = k
    · simp [h, keys]
    · have : k ≠ k' := fun e => h e.symm
      simp [h, keys, this] at ih ⊢
      exact ih

theorem get?_isSome_iff [DecidableEq K] {m : BMap K V} {k : K} :
    (get? m k).isSome ↔ k ∈ keys m := by
  have := @get?_eq_none_iff K V _ m k
  cases h : get? m k <;> simp [h] at this ⊢ <;> tauto

theorem mem_keys_iff [DecidableEq K] {m : BMap K V} {k : K} :
    k ∈ keys m ↔ ∃ v, get? m k = some v := by
  rw [← get?_isSome_iff, Option.isSome_iff_exists]

theorem mem_keys_of_mem {m : BMap K V} {k : K} {v : V} (h : (k, v) ∈ m) : k ∈ keys m :=
  List.mem_map.mpr ⟨(k, v), h, rfl⟩

theorem get?_of_mem_nodup [DecidableEq K] {m : BMap K V} (hn : (keys m).Nodup) {k : K} {v : V}
    (h : (k, v) ∈ m) : get? m k = some v := by
  induction m with
  | nil => simp at h
  | cons e m ih =>
    obtain ⟨k', v'⟩ := e
    simp only [keys, List.map_cons, List.nodup_cons] at hn
    rw [get?_cons]
    rcases List.mem_cons.mp h with h | h
    · cases h; simp
    · have : k' ≠ k := by
        rintro rfl
        exact hn.1 (mem_keys_of_mem h)
      simp [this]
      exact ih hn.2 h

variable [LinearOrder K]

theorem Sorted.nodup {m : BMap K V} (h : Sorted m) : (keys m).Nodup :=
  h.imp (fun hlt => ne_of_lt hlt)

theorem Sorted.tail {e : K × V} {m : BMap K V} (h : Sorted (e :: m)) : Sorted m := by
  simp only [Sorted, keys, List.map_cons, List.pairwise_cons] at h ⊢
  exact h.2

theorem Sorted.head_lt {e : K × V} {m : BMap K V} (h : Sorted (e :: m)) :
    ∀ k ∈ keys m, e.1 < k := by
  simp only [Sorted, keys, List.map_cons, List.pairwise_cons] at h
  exact h.1

@[simp] theorem sorted_nil : Sorted ([] : BMap K V) := by simp [Sorted, keys]

theorem sorted_cons {e : K × V} {m : BMap K V} :
    Sorted (e :: m) ↔ (∀ k ∈ keys m, e.1 < k) ∧ Sorted m := by
  simp only [Sorted, keys, List.map_cons, List.pairwise_cons]

theorem get?_eq_some_iff {m : BMap K V} (hs : Sorted m) {k : K} {v : V} :
    get? m k = some v ↔ (k, v) ∈ m :=
  ⟨mem_of_get?, get?_of_mem_nodup hs.nodup⟩

theorem keys_insert_mem {m : BMap K V} {k x : K} {v : V} :
    x ∈ keys (insert k v m) ↔ x = k ∨ x ∈ keys m := by
  induction m with
  | nil => simp [insert, keys]
  | cons e m ih =>
    obtain ⟨k', v'⟩ := e
    unfold insert
    split
    · simp [keys]
    · split
      · rename_i h; subst h; simp [keys]
      · simp only [keys, List.map_cons, List.mem_cons] at ih ⊢
        rw [ih]; tauto

theorem sorted_insert {m : BMap K V} (h : Sorted m) (k : K) (v : V) : Sorted (insert k v m) := by
  induction m with
  | nil => simp [insert, Sorted, keys]
  | cons e m ih =>
    obtain ⟨k', v'⟩ := e
    have ht := h.tail
    have hh := h.head_lt
    unfold insert
    split
    · rename_i hlt
      rw [sorted_cons]
      refine ⟨?_, h⟩
      intro x hx
      simp only [keys, List.map_cons, List.mem_cons] at hx
      rcases hx with rfl | hx
      · exact hlt
      · exact lt_trans hlt (hh x hx)
    · split
      · rename_i heq; subst heq
        rw [sorted_cons]; exact ⟨hh, ht⟩
      · rename_i h1 h2
        rw [sorted_cons]
        refine ⟨?_, ih ht⟩
        intro x hx
        rw [keys_insert_mem] at hx
        rcases hx with rfl | hx
        · exact lt_of_le_of_ne (not_lt.mp h1) (fun e => h2 e.symm)
        · exact hh x hx

theorem get?_insert {m : BMap K V} (h : Sorted m) (k x : K) (v : V) :
    get? (insert k v m) x = if k = x then some v else get? m x := by
  induction m with
  | nil => simp [insert, get?_cons]
  | cons e m ih =>
    obtain ⟨k', v'⟩ := e
    have ht := h.tail
    have hh := h.head_lt
    unfold insert
    split
    · simp [get?_cons]
    · split
      · rename_i heq; subst heq
        simp only [get?_cons]
        split <;> simp_all
      · rename_i h1 h2
        simp only [get?_cons]
        rw [ih ht]
        by_cases hx : k' = x
        · subst hx; simp [h2]
        · simp [hx]

theorem keys_erase_mem {m : BMap K V} {k x : K} :
    x ∈ keys (erase k m) ↔ x ≠ k ∧ x ∈ keys m := by
  induction m with
  | nil => simp [erase, keys]
  | cons e m ih =>
    obtain ⟨k', v'⟩ := e
    unfold erase
    split
    · rename_i h; subst h
      rw [ih]; simp only [keys, List.map_cons, List.mem_cons]; tauto
    · rename_i h
      simp only [keys, List.map_cons, List.mem_cons] at ih ⊢
      rw [ih]
      constructor
      · rintro (rfl | ⟨h1, h2⟩)
        · exact ⟨h, Or.inl rfl⟩
        · exact ⟨h1, Or.inr h2⟩
      · rintro ⟨h1, h2 | h2⟩
        · exact Or.inl h2
        · exact Or.inr ⟨h1, h2⟩

theorem sorted_erase {m : BMap K V} (h : Sorted m) (k : K) : Sorted (erase k m) := by
  induction m with
  | nil => simp [erase]
  | cons e m ih =>
    obtain ⟨k', v'⟩ := e
    unfold erase
    split
    · exact ih h.tail
    · rw [sorted_cons]
      refine ⟨?_, ih h.tail⟩
      intro x hx
      exact h.head_lt x (keys_erase_mem.mp hx).2

theorem get?_erase (m : BMap K V) (k x : K) :
    get? (erase k m) x = if k = x then none else get? m x := by
  induction m with
  | nil => simp [erase]
  | cons e m ih =>
    obtain ⟨k', v'⟩ := e
    unfold erase
    split
    · rename_i h; subst h
      rw [ih, get?_cons]; split <;> rfl
    · rename_i h
      rw [get?_cons, ih, get?_cons]
      by_cases hx : k' = x
      · subst hx
        have h2 : k ≠ k' := fun e => h e.symm
        simp [h2]
      · simp [hx]

/-- Two maps with the same lookups are the same map. -/
theorem ext_get? {m m' : BMap K V} (h : Sorted m) (h' : Sorted m')
    (hg : ∀ k, get? m k = get? m' k) : m = m' := by
  induction m generalizing m' with
  | nil =>
    cases m' with
    | nil => rfl
    | cons e m' =>
      obtain ⟨k', v'⟩ := e
      have := hg k'
      simp [get?_cons] at this
  | cons e m ih =>
    obtain ⟨k, v⟩ := e
    cases m' with
    | nil =>
      have := hg k
      simp [get?_cons] at this
    | cons e' m' =>
      obtain ⟨k', v'⟩ := e'
      have hkk : k = k' := by
        rcases lt_trichotomy k k' with hlt | heq | hlt
        · exfalso
          have h1 := hg k
          rw [get?_cons, get?_cons, if_pos rfl, if_neg (ne_of_gt hlt)] at h1
          have : k ∈ keys m' := mem_keys_iff.mpr ⟨v, h1.symm⟩
          exact lt_asymm hlt (h'.head_lt k this)
        · exact heq
        · exfalso
          have h1 := hg k'
          rw [get?_cons, get?_cons, if_pos rfl, if_neg (ne_of_gt hlt)] at h1
          have : k' ∈ keys m := mem_keys_iff.mpr ⟨v', h1⟩
          exact lt_asymm hlt (h.head_lt k' this)
      subst hkk
      have hv : v = v' := by
        have := hg k
        simpa [get?_cons] using this
      subst hv
      congr 1
      apply ih h.tail h'.tail
      intro x
      have := hg x
      rw [get?_cons, get?_cons] at this
      by_cases hx : k = x
      · subst hx
        have h1 : k ∉ keys m := fun hm => lt_irrefl _ (h.head_lt k hm)
        have h2 : k ∉ keys m' := fun hm => lt_irrefl _ (h'.head_lt k hm)
        rw [get?_eq_none_iff.mpr h1, get?_eq_none_iff.mpr h2]
      · simpa [hx] using this

theorem insert_of_all_lt {m : BMap K V} {k : K} {v : V} (h : ∀ x ∈ keys m, x < k) :
    insert k v m = m ++ [(k, v)] := by
  induction m with
  | nil => rfl
  | cons e m ih =>
    obtain ⟨k', v'⟩ := e
    have h1 : k' < k := h k' (by simp [keys])
    unfold insert
    rw [if_neg (lt_asymm h1), if_neg (ne_of_gt h1), ih]
    · rfl
    · intro x hx
      exact h x (by simp only [keys, List.map_cons, List.mem_cons]; right; exact hx)

theorem foldl_insert_sorted (l acc : BMap K V) (h : Sorted (acc ++ l)) :
    l.foldl (fun m e => insert e.1 e.2 m) acc = acc ++ l := by
  induction l generalizing acc with
  | nil => simp
  | cons e l ih =>
    rw [List.foldl_cons, insert_of_all_lt]
    · have := ih (acc ++ [(e.1, e.2)]) (by simpa using h)
      simpa using this
    · intro x hx
      simp only [Sorted, keys, List.map_append, List.pairwise_append] at h
      exact h.2.2 x hx e.1 (by simp)

/-- Collecting a sorted list of entries into a `BTreeMap` is the identity. -/
theorem ofList_of_sorted {l : BMap K V} (h : Sorted l) : ofList l = l := by
  unfold ofList
  simpa using foldl_insert_sorted l [] (by simpa using h)

theorem sorted_foldl_insert (l : List (K × V)) (acc : BMap K V) (h : Sorted acc) :
    Sorted (l.foldl (fun m e => insert e.1 e.2 m) acc) := by
  induction l generalizing acc with
  | nil => simpa
  | cons e l ih => exact ih _ (sorted_insert h _ _)

theorem sorted_ofList (l : List (K × V)) : Sorted (ofList l) :=
  sorted_foldl_insert l [] sorted_nil

theorem keys_foldl_insert (l : List (K × V)) (acc : BMap K V) (x : K) :
    x ∈ keys (l.foldl (fun m e => insert e.1 e.2 m) acc) ↔ x ∈ keys acc ∨ x ∈ keys l := by
  induction l generalizing acc with
  | nil => simp [keys]
  | cons e l ih =>
    rw [List.foldl_cons, ih, keys_insert_mem]
    simp only [keys, List.map_cons, List.mem_cons]
    tauto

theorem keys_ofList (l : List (K × V)) (x : K) : x ∈ keys (ofList l) ↔ x ∈ keys l := by
  unfold ofList; rw [keys_foldl_insert]; simp [keys]

theorem mem_insert_of {m : BMap K V} {k x : K} {v w : V} (h : (x, w) ∈ insert k v m) :
    (x = k ∧ w = v) ∨ (x, w) ∈ m := by
  induction m with
  | nil => simp [insert] at h; exact Or.inl h
  | cons e m ih =>
    obtain ⟨k', v'⟩ := e
    unfold insert at h
    split at h
    · simp only [List.mem_cons, Prod.mk.injEq] at h ⊢; tauto
    · split at h
      · simp only [List.mem_cons, Prod.mk.injEq] at h ⊢; tauto
      · simp only [List.mem_cons, Prod.mk.injEq] at h ⊢
        rcases h with h | h
        · tauto
        · rcases ih h with h | h <;> tauto

theorem mem_insert_iff {m : BMap K V} (hs : Sorted m) {k x : K} {v w : V} :
    (x, w) ∈ insert k v m ↔ (x = k ∧ w = v) ∨ (x ≠ k ∧ (x, w) ∈ m) := by
  rw [← get?_eq_some_iff (sorted_insert hs k v), get?_insert hs, ← get?_eq_some_iff hs]
  by_cases h : k = x
  · subst h; simp; exact eq_comm
  · have : x ≠ k := fun e => h e.symm
    simp [h, this]

theorem mem_erase_iff {m : BMap K V} {k x : K} {w : V} :
    (x, w) ∈ erase k m ↔ x ≠ k ∧ (x, w) ∈ m := by
  induction m with
  | nil => simp [erase]
  | cons e m ih =>
    obtain ⟨k', v'⟩ := e
    unfold erase
    split
    · rename_i h; subst h
      rw [ih]; simp only [List.mem_cons, Prod.mk.injEq]
      constructor
      · rintro ⟨h1, h2⟩; exact ⟨h1, Or.inr h2⟩
      · rintro ⟨h1, ⟨h2, _⟩ | h2⟩
        · exact absurd h2 h1
        · exact ⟨h1, h2⟩
    · rename_i h
      simp only [List.mem_cons, ih, Prod.mk.injEq]
      constructor
      · rintro (⟨rfl, rfl⟩ | ⟨h1, h2⟩)
        · exact ⟨h, Or.inl ⟨rfl, rfl⟩⟩
        · exact ⟨h1, Or.inr h2⟩
      · rintro ⟨h1, ⟨h2, h3⟩ | h2⟩
        · exact Or.inl ⟨h2, h3⟩
        · exact Or.inr ⟨h1, h2⟩

end BMap

namespace BSet
variable {K : Type _} [LinearOrder K]

@[simp] theorem sorted_nil : Sorted ([] : BSet K) := by simp [Sorted]

theorem mem_insert {s : BSet K} {k x : K} : x ∈ insert k s ↔ x = k ∨ x ∈ s := by
  induction s with
  | nil => simp [insert]
  | cons e s ih =>
    unfold insert
    split
    · simp
    · split
      · rename_i h; subst h; simp
      · simp only [List.mem_cons]; rw [ih]; tauto

theorem sorted_insert {s : BSet K} (h : Sorted s) (k : K) : Sorted (insert k s) := by
  induction s with
  | nil => simp [insert, Sorted]
  | cons e s ih =>
    simp only [Sorted, List.pairwise_cons] at h
    unfold insert
    split
    · rename_i hlt
      simp only [Sorted, List.pairwise_cons]
      refine ⟨?_, h⟩
      intro x hx
      rcases List.mem_cons.mp hx with rfl | hx
      · exact hlt
      · exact lt_trans hlt (h.1 x hx)
    · split
      · simp only [Sorted, List.pairwise_cons]; exact h
      · rename_i h1 h2
        simp only [Sorted, List.pairwise_cons]
        refine ⟨?_, ih h.2⟩
        intro x hx
        rw [mem_insert] at hx
        rcases hx with rfl | hx
        · exact lt_of_le_of_ne (not_lt.mp h1) (fun e => h2 e.symm)
        · exact h.1 x hx

theorem ext_mem {s t : BSet K} (hs : Sorted s) (ht : Sorted t) (h : ∀ x, x ∈ s ↔ x ∈ t) : s = t := by
  induction s generalizing t with
  | nil =>
    cases t with
    | nil => rfl
    | cons b t => have := (h b).mpr (by simp); simp at this
  | cons a s ih =>
    cases t with
    | nil => have := (h a).mp (by simp); simp at this
    | cons b t =>
      simp only [Sorted, List.pairwise_cons] at hs ht
      have hab : a = b := by
        rcases lt_trichotomy a b with hlt | heq | hlt
        · exfalso
          have := (h a).mp (by simp)
          rcases List.mem_cons.mp this with h1 | h1
          · exact absurd h1 (ne_of_lt hlt)
          · exact lt_asymm hlt (ht.1 a h1)
        · exact heq
        · exfalso
          have := (h b).mpr (by simp)
          rcases List.mem_cons.mp this with h1 | h1
          · exact absurd h1 (ne_of_lt hlt)
          · exact lt_asymm hlt (hs.1 b h1)
      subst hab
      congr 1
      apply ih hs.2 ht.2
      intro x
      have := h x
      simp only [List.mem_cons] at this
      by_cases hx : x = a
      · subst hx
        constructor
        · intro hm; exact absurd (hs.1 x hm) (lt_irrefl _)
        · intro hm; exact absurd (ht.1 x hm) (lt_irrefl _)
      · simpa [hx] using this

theorem mem_foldl_insert (l : List K) (acc : BSet K) (x : K) :
    x ∈ l.foldl (fun s k => insert k s) acc ↔ x ∈ acc ∨ x ∈ l := by
  induction l generalizing acc with
  | nil => simp
  | cons e l ih => rw [List.foldl_cons, ih, mem_insert, List.mem_cons]; tauto

theorem sorted_foldl_insert (l : List K) (acc : BSet K) (h : Sorted acc) :
    Sorted (l.foldl (fun s k => insert k s) acc) := by
  induction l generalizing acc with
  | nil => simpa
  | cons e l ih => exact ih _ (sorted_insert h _)

theorem mem_ofList (l : List K) (x : K) : x ∈ ofList l ↔ x ∈ l := by
  unfold ofList; rw [mem_foldl_insert]; simp

theorem sorted_ofList (l : List K) : Sorted (ofList l) := sorted_foldl_insert l [] sorted_nil

end BSet

end Backpak
