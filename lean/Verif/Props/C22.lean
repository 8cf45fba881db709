import Verif.Lemmas.Snapshots

/-!
# C22 - The parent snapshot is the newest one of the same paths
-/

namespace Backpak.C22

variable {Id : Type}

/-- In a list in any order: the last one that covers the paths. -/
theorem parent_is_last (paths : BSet Path) (l : List (Snap Id)) (p : Snapshot Id) :
    parentSnapshot paths l = some p ↔ p.paths = paths ∧
      ∃ pre id post, l = pre ++ (p, id) :: post ∧ ∀ q ∈ post, q.1.paths ≠ paths := by
  unfold parentSnapshot
  simp only [Option.map_eq_some_iff, List.find?_eq_some_iff_append, decide_eq_true_eq,
    Bool.not_eq_eq_eq_not, Bool.not_true, decide_eq_false_iff_not]
  constructor
  · rintro ⟨⟨q, id⟩, ⟨hq, as, bs, hl, has⟩, rfl⟩
    refine ⟨hq, bs.reverse, id, as.reverse, ?_, fun x hx => has x (List.mem_reverse.mp hx)⟩
    have := congrArg List.reverse hl
    simpa using this
  · rintro ⟨hp, pre, id, post, rfl, hpost⟩
    exact ⟨(p, id), ⟨hp, post.reverse, pre.reverse, by simp, fun x hx => hpost x (List.mem_reverse.mp hx)⟩,
      rfl⟩

/-- In whatever order the snapshots are loaded: the parent covers exactly the paths, is one of
them, and none that covers the paths was taken later. -/
theorem parent_newest (paths : BSet Path) (loaded : List (Snap Id)) (p : Snapshot Id)
    (h : parentSnapshot paths (loadChronologically loaded) = some p) :
    p.paths = paths ∧ (∃ id, (p, id) ∈ loaded) ∧
      ∀ q ∈ loaded, q.1.paths = paths → q.1.time ≤ p.time := by
  obtain ⟨h1, pre, id, post, hl, hpost⟩ := (parent_is_last _ _ _).mp h
  have hs := chrono_sorted loaded
  refine ⟨h1, ⟨id, (chrono_perm loaded).subset (by rw [hl]; simp)⟩, ?_⟩
  intro q hq hp
  have hm := (chrono_perm loaded).symm.subset hq
  rw [hl] at hm hs
  rcases List.mem_append.mp hm with hm | hm
  · exact (List.pairwise_append.mp hs).2.2 q hm (p, id) (by simp)
  · rcases List.mem_cons.mp hm with rfl | hm
    · exact le_refl _
    · exact absurd hp (hpost q hm)

/-- There is no parent exactly when no snapshot covers the paths. -/
theorem no_parent (paths : BSet Path) (loaded : List (Snap Id)) :
    parentSnapshot paths (loadChronologically loaded) = none ↔ ∀ q ∈ loaded, q.1.paths ≠ paths := by
  unfold parentSnapshot
  simp only [Option.map_eq_none_iff, List.find?_eq_none, decide_eq_true_eq, List.mem_reverse]
  constructor
  · exact fun h q hq => h q ((chrono_perm loaded).symm.subset hq)
  · exact fun h q hq => h q ((chrono_perm loaded).subset hq)

/-- Two snapshots of one path, loaded newest first, and one of another. -/
example : parentSnapshot [[[97]]] (loadChronologically
    [(⟨9, [], [], [], [[[97]]], 1⟩, 11), (⟨5, [], [], [], [[[97]]], 2⟩, 12),
     ((⟨12, [], [], [], [[[98]]], 3⟩ : Snapshot Nat), 13)]) = some ⟨9, [], [], [], [[[97]]], 1⟩ := by
  decide +kernel

end Backpak.C22
