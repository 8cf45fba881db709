import Verif.Lemmas.Repack

/-!
# Repacking trees of which nothing is skipped
-/

namespace Backpak

open Spec

variable {Id : Type} [LinearOrder Id] {C : Codec Id} {R : Repo Id} {filter : Path → Bool}

/-- How many entries, in all. -/
def entries : Dir Bytes → Nat
  | .nil => 0
  | .leaf _ _ _ rest => entries rest + 1
  | .dir _ _ sub rest => entries sub + entries rest + 1

omit [LinearOrder Id] in
theorem entries_keep (filter : Path → Bool) (d : Dir Bytes) : ∀ pathOf, entries (keep filter pathOf d) ≤ entries d := by
  induction d with
  | nil => intro _; exact Nat.le_refl _
  | leaf n md l rest ih =>
    intro p
    have := ih p
    simp only [Spec.keep]
    split <;> simp only [entries] <;> omega
  | dir n md sub rest ih1 ih2 =>
    intro p
    have h1 := ih1 (fun m => p n ++ [m])
    have h2 := ih2 p
    simp only [Spec.keep]
    split <;> simp only [entries] <;> omega

/-- If nothing below is skipped then the nodes, with the new IDs of subtrees, are the same. -/
theorem filterNodes_same {F : Forest Id} (hS : Sound C R) (hF : ∀ id t, InForest F id t → TreeAt C R id t)
    {t : Tree Id} {d : Dir Bytes} (h : DirHolds C R t d) : ∀ (k : Nat) (path : Path),
    (∀ s, Sub t s → Tall (InForest F) k s) → keep filter (fun n => path ++ [n]) d = d →
    (filterNodes filter (filterTree C filter F k) path t).1 = t := by
  induction h with
  | nil => intro k path _ _; rfl
  | @file n cs md t x d _ _ ih =>
    intro k path ht hk
    have hr := ih k path (fun s ⟨m, md, h⟩ => ht s ⟨m, md, List.mem_cons_of_mem _ h⟩)
    simp only [Spec.keep] at hk
    split at hk
    · have := entries_keep filter d (fun n => path ++ [n])
      rw [hk] at this
      simp only [entries] at this
      omega
    · rename_i hf
      have hf : ¬ filter (path ++ [n]) = false := fun h => hf (.inl h)
      injection hk with _ _ _ hk
      simp only [filterNodes, if_neg hf, hr hk]
  | @link n tgt md t d _ ih =>
    intro k path ht hk
    have hr := ih k path (fun s ⟨m, md, h⟩ => ht s ⟨m, md, List.mem_cons_of_mem _ h⟩)
    simp only [Spec.keep] at hk
    split at hk
    · have := entries_keep filter d (fun n => path ++ [n])
      rw [hk] at this
      simp only [entries] at this
      omega
    · rename_i hf
      have hf : ¬ filter (path ++ [n]) = false := fun h => hf (.inl h)
      injection hk with _ _ _ hk
      simp only [filterNodes, if_neg hf, hr hk]
  | @dir n id md t u sub d hu _ _ ih1 ih2 =>
    intro k path ht hk
    have hr := ih2 k path (fun s ⟨m, md, h⟩ => ht s ⟨m, md, List.mem_cons_of_mem _ h⟩)
    simp only [Spec.keep] at hk
    split at hk
    · have := entries_keep filter d (fun n => path ++ [n])
      rw [hk] at this
      simp only [entries] at this
      omega
    · rename_i hf
      injection hk with _ _ hk1 hk2
      have htall := ht id ⟨n, md, List.mem_cons_self⟩
      obtain ⟨k, rfl⟩ : ∃ j, k = j + 1 := by
        cases k with
        | zero => exact htall.elim
        | succ j => exact ⟨j, rfl⟩
      obtain ⟨u', hu', htall⟩ := htall
      obtain rfl := hS.treeAt_one (hF _ _ hu') hu
      have hsub := ih1 k (path ++ [n]) htall hk1
      have hcall : (filterTree C filter F (k + 1) (path ++ [n]) id).1 = id := by
        unfold InForest at hu'
        simp only [filterTree, hu', hsub]
        exact hu.2.1
      simp only [filterNodes, if_neg hf, hr hk2, hcall]

/-- If nothing below is skipped then a tree keeps its ID. -/
theorem filterTree_same {F : Forest Id} (hS : Sound C R) (hF : ∀ id t, InForest F id t → TreeAt C R id t)
    {u : Id} {d : Dir Bytes} (h : Holds C R u d) (k : Nat) (path : Path) (ht : Tall (InForest F) k u)
    (hk : keep filter (fun n => path ++ [n]) d = d) : (filterTree C filter F k path u).1 = u := by
  obtain ⟨t, h1, h2⟩ := h
  cases k with
  | zero => exact ht.elim
  | succ k =>
    obtain ⟨t', h3, h4⟩ := ht
    obtain rfl := hS.treeAt_one (hF _ _ h3) h1
    have := filterNodes_same (filter := filter) hS hF h2 k path h4 hk
    unfold InForest at h3
    simp only [filterTree, h3, this]
    exact h1.2.1

omit [LinearOrder Id] in
theorem filterNodes_mem {down : Path → Id → Id × List (Blob Id)} {path : Path} {t : Tree Id} {n : Name}
    {j : Id} {md : Meta} (hf : filter (path ++ [n]) = true) (h : (n, ⟨.dir j, md⟩) ∈ t) :
    (n, ⟨.dir (down (path ++ [n]) j).1, md⟩) ∈ (filterNodes filter down path t).1 ∧
    ∀ b ∈ (down (path ++ [n]) j).2, b ∈ (filterNodes filter down path t).2 := by
  induction t with
  | nil => cases h
  | cons e t ih =>
    obtain ⟨m, x⟩ := e
    simp only [filterNodes]
    rcases List.mem_cons.mp h with he | h
    · cases he
      rw [if_neg (by simp [hf])]
      exact ⟨List.mem_cons_self, fun b hb => List.mem_append_left _ hb⟩
    · obtain ⟨h1, h2⟩ := ih h
      split
      · exact ⟨h1, h2⟩
      · cases x.contents with
        | file cs => exact ⟨List.mem_cons_of_mem _ h1, h2⟩
        | link tgt => exact ⟨List.mem_cons_of_mem _ h1, h2⟩
        | dir s => exact ⟨List.mem_cons_of_mem _ h1, fun b hb => List.mem_append_right _ (h2 b hb)⟩

omit [LinearOrder Id] in
theorem keep_all {PF : List Id → Bytes → Prop} {PT : Id → Tree Id → Prop} {t : Tree Id} {d : Dir Bytes}
    (h : DirRel PF PT t d) : ∀ f, Spec.keep (fun _ => true) f d = d := by
  induction h with
  | nil => exact fun _ => rfl
  | file _ _ ih => intro f; simp [Spec.keep, ih]
  | link _ ih => intro f; simp [Spec.keep, ih]
  | dir _ _ _ ih1 ih2 => intro f; simp [Spec.keep, ih1, ih2]

omit [LinearOrder Id] in
theorem holds_sub {PF : List Id → Bytes → Prop} {PT : Id → Tree Id → Prop} {t : Tree Id} {d : Dir Bytes}
    (h : DirRel PF PT t d) : ∀ {n sub md}, (n, ⟨.dir sub, md⟩) ∈ t → ∃ t' d', PT sub t' ∧ DirRel PF PT t' d' := by
  induction h with
  | nil => intro n sub md hm; cases hm
  | file _ _ ih =>
    intro n sub md hm
    rcases List.mem_cons.mp hm with h | h
    · cases h
    · exact ih h
  | link _ ih =>
    intro n sub md hm
    rcases List.mem_cons.mp hm with h | h
    · cases h
    · exact ih h
  | dir h1 h2 _ _ ih =>
    intro n sub md hm
    rcases List.mem_cons.mp hm with h | h
    · cases h; exact ⟨_, _, h1, h2⟩
    · exact ih h

/-- If nothing is skipped, every tree below is among the blobs. -/
theorem filterTree_all {F : Forest Id} (hS : Sound C R) (hF : ∀ id t, InForest F id t → TreeAt C R id t)
    {root u : Id} (hr : Reaches (TreeAt C R) root u) : ∀ {d : Dir Bytes}, Holds C R root d → ∀ (k : Nat) (path : Path),
    Tall (InForest F) k root → ∃ b ∈ (filterTree C (fun _ => true) F k path root).2, b.id = u := by
  induction hr with
  | @refl id =>
    intro d hd k path ht
    have h1 := filterTree_same (filter := fun _ => true) hS hF hd k path ht (by
      obtain ⟨t, _, hd⟩ := hd
      exact keep_all hd _)
    cases k with
    | zero => exact ht.elim
    | succ k =>
      obtain ⟨t', h3, _⟩ := ht
      unfold InForest at h3
      simp only [filterTree, h3] at h1 ⊢
      exact ⟨_, List.mem_append_right _ (List.mem_singleton_self _), h1⟩
  | @step id t n sub md id' ht hm _ ih =>
    rintro d ⟨t', ht', hd⟩ k path hk
    have := hS.treeAt_one ht ht'
    subst this
    obtain ⟨t2, d2, h1, h2⟩ := holds_sub hd hm
    cases k with
    | zero => exact hk.elim
    | succ k =>
      obtain ⟨t3, h3, h4⟩ := hk
      have := hS.treeAt_one (hF _ _ h3) ht
      subst this
      obtain ⟨b, hb, e⟩ := ih ⟨t2, h1, h2⟩ k (path ++ [n]) (h4 sub ⟨n, md, hm⟩)
      unfold InForest at h3
      simp only [filterTree, h3]
      exact ⟨b, List.mem_append_left _ ((filterNodes_mem rfl hm).2 b hb), e⟩

end Backpak
