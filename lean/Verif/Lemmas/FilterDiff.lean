import Verif.Lemmas.Diff
import Verif.Lemmas.RoundTrip
import Verif.Spec.Since
import Verif.Props.C31

/-!
# What is at a path after filtering
-/

namespace Backpak

open Spec

variable {Id : Type} [LinearOrder Id] {C : Codec Id} {R : Repo Id} {filter : Path → Bool} {F F1 F2 : Forest Id}

namespace FilterDiff

/-- The same node, but for the ID of a subdirectory. -/
def Alike (x y : Node Id) : Prop :=
  x.md = y.md ∧ (x.contents = y.contents ∨ ∃ i j, x.contents = .dir i ∧ y.contents = .dir j)

/-- The same, where either may be missing. -/
def AlikeAt : Option (Node Id) → Option (Node Id) → Prop
  | none, none => True
  | some x, some y => Alike x y
  | _, _ => False

theorem get?_filterNodes {down : Path → Id → Id × List (Blob Id)} {path : Path} (n : Name) : ∀ (t : Tree Id),
    BMap.Sorted t →
    BMap.get? (filterNodes filter down path t).1 n =
      if filter (path ++ [n]) = false then none
      else (BMap.get? t n).map (fun x =>
        match x.contents with
        | .dir sub => ⟨.dir (down (path ++ [n]) sub).1, x.md⟩
        | _ => x) := by
  intro t
  induction t with
  | nil => intro _; simp [filterNodes, BMap.get?]
  | cons e t ih =>
    obtain ⟨m, x⟩ := e
    intro hs
    have ih := ih (List.pairwise_cons.mp hs).2
    simp only [filterNodes]
    by_cases hnm : n = m
    · subst hnm
      split
      · rename_i hf
        rw [ih, if_pos hf]
      · rename_i hf
        obtain ⟨c, md⟩ := x
        cases c <;> simp [BMap.get?]
    · split
      · rw [ih, get?_cons, if_neg hnm]
      · obtain ⟨c, md⟩ := x
        cases c <;> simp only [get?_cons, if_neg hnm, ih]

theorem filterTree_blob {k : Nat} {path : Path} {u : Id} {t : Tree Id} (h : F.get? u = some t) :
    filterTree C filter F (k + 1) path u =
      (C.hash (C.encTree (filterNodes filter (filterTree C filter F k) path t).1),
        (filterNodes filter (filterTree C filter F k) path t).2 ++
        [⟨C.encTree (filterNodes filter (filterTree C filter F k) path t).1,
          C.hash (C.encTree (filterNodes filter (filterTree C filter F k) path t).1), .tree⟩]) := by
  rw [filterTree, h]

theorem wanted_nil {p : Path} : Wanted filter p [] ↔ filter p = true := by
  constructor
  · intro h; simpa using h 0 (by simp)
  · intro h k hk; simpa using h

/-- At a path of which nothing is skipped there is the same, and at others nothing. -/
theorem nodeAt_filter (hS : Sound C R) (hF : ∀ id t, InForest F id t → TreeAt C R id t)
    (hF1 : ∀ id t, InForest F1 id t → TreeAt C R id t) (hF2 : ∀ id t, InForest F2 id t → TreeAt C R id t)
    (q : Path) : ∀ (n : Name) (k : Nat) (path : Path) (u : Id), Tall (InForest F) k u → Grounded (InForest F1) u →
    Grounded (InForest F2) (filterTree C filter F k path u).1 →
    (∀ b ∈ (filterTree C filter F k path u).2, WellMade C b ∧ b.kind = .tree ∧ Has C R b) →
    (¬ Wanted filter (path ++ [n]) q → nodeAt F2 (filterTree C filter F k path u).1 (n :: q) = none) ∧
    (Wanted filter (path ++ [n]) q →
      AlikeAt (nodeAt F1 u (n :: q)) (nodeAt F2 (filterTree C filter F k path u).1 (n :: q))) := by
  induction q with
  | nil =>
    intro n k path u ht h1 h2 hb
    cases k with
    | zero => exact ht.elim
    | succ k =>
      obtain ⟨t, h3, h4⟩ := ht
      have hc := filterTree_blob (C := C) (filter := filter) (k := k) (path := path) h3
      rw [hc] at h2 hb ⊢
      have ht := hF _ _ h3
      obtain ⟨g1, _, g2⟩ := hb _ (List.mem_append_right _ (List.mem_singleton_self _))
      cases h1 with
      | @mk _ t1 e1 f1 =>
      cases h2 with
      | @mk _ t2 e2 f2 =>
      obtain rfl := hS.treeAt_one (hF1 _ _ e1) ht
      obtain rfl := hS.treeAt_one (hF2 _ _ e2) ⟨C31.filterNodes_okTree ht.1, rfl, .inr g2⟩
      unfold InForest at e1 e2
      simp only [nodeAt, e1, e2, Option.bind_some, wanted_nil]
      rw [get?_filterNodes n _ ht.1.sorted]
      constructor
      · intro hw
        rw [if_pos (by simpa using hw)]
      · intro hw
        rw [if_neg (by simp [hw])]
        rcases hx : BMap.get? t1 n with _ | ⟨c, md⟩
        · trivial
        · cases c with
          | file cs => exact ⟨rfl, .inl rfl⟩
          | link l => exact ⟨rfl, .inl rfl⟩
          | dir s => exact ⟨rfl, .inr ⟨_, _, rfl, rfl⟩⟩
  | cons m q ih =>
    intro n k path u ht h1 h2 hb
    cases k with
    | zero => exact ht.elim
    | succ k =>
      obtain ⟨t, h3, h4⟩ := ht
      have hc := filterTree_blob (C := C) (filter := filter) (k := k) (path := path) h3
      rw [hc] at h2 hb ⊢
      have ht := hF _ _ h3
      obtain ⟨g1, _, g2⟩ := hb _ (List.mem_append_right _ (List.mem_singleton_self _))
      cases h1 with
      | @mk _ t1 e1 f1 =>
      cases h2 with
      | @mk _ t2 e2 f2 =>
      obtain rfl := hS.treeAt_one (hF1 _ _ e1) ht
      obtain rfl := hS.treeAt_one (hF2 _ _ e2) ⟨C31.filterNodes_okTree ht.1, rfl, .inr g2⟩
      unfold InForest at e1 e2
      simp only [nodeAt, e1, e2, Option.bind_some, wanted_cons]
      have hg := get?_filterNodes (filter := filter) (down := filterTree C filter F k) (path := path) n _ ht.1.sorted
      by_cases hf : filter (path ++ [n]) = true
      · rw [if_neg (by simp [hf])] at hg
        rcases hx : BMap.get? t1 n with _ | ⟨c, md⟩
        · rw [hx] at hg
          simp only [Option.map_none] at hg
          rw [hg]
          exact ⟨fun _ => rfl, fun _ => trivial⟩
        · rw [hx] at hg
          simp only [Option.map_some] at hg
          cases c with
          | file cs => dsimp only at hg; rw [hg]; exact ⟨fun _ => rfl, fun _ => trivial⟩
          | link l => dsimp only at hg; rw [hg]; exact ⟨fun _ => rfl, fun _ => trivial⟩
          | dir s =>
            dsimp only at hg
            rw [hg]
            have hm := BMap.mem_of_get? hx
            have hm2 := BMap.mem_of_get? hg
            have := ih m k (path ++ [n]) s (h4 s ⟨n, md, hm⟩) (f1 s ⟨n, md, hm⟩) (f2 _ ⟨n, md, hm2⟩)
              (fun b hb' => hb b (List.mem_append_left _ ((filterNodes_mem hf hm).2 b hb')))
            simpa only [hf, true_and] using this
      · rw [if_pos (by simpa using hf)] at hg
        rw [hg]
        exact ⟨fun _ => rfl, fun h => absurd h.1 hf⟩

/-- Files of which what their chunks are is known: it stays known. -/
theorem filterNodes_rel {PF : List Id → Bytes → Prop} (hS : Sound C R) (hF : ∀ id t, InForest F id t → TreeAt C R id t)
    {t : Tree Id} {d : Dir Bytes} (h : DirRel PF (TreeAt C R) t d) : ∀ (k : Nat) (path : Path),
    (∀ s, Sub t s → Tall (InForest F) k s) →
    (∀ b ∈ (filterNodes filter (filterTree C filter F k) path t).2, WellMade C b ∧ b.kind = .tree ∧ Has C R b) →
    DirRel PF (TreeAt C R) (filterNodes filter (filterTree C filter F k) path t).1
      (keep filter (fun n => path ++ [n]) d) := by
  induction h with
  | nil => intro k path _ _; exact .nil
  | @file n cs md t x d hx _ ih =>
    intro k path ht hb
    have hr := ih k path (fun s ⟨m, md, h⟩ => ht s ⟨m, md, List.mem_cons_of_mem _ h⟩)
    simp only [filterNodes, Spec.keep] at hb ⊢
    by_cases hf : filter (path ++ [n]) = false
    · rw [if_pos hf] at hb ⊢
      rw [if_pos (.inl hf)]
      exact hr hb
    · rw [if_neg hf] at hb ⊢
      rw [if_neg (by simp [hf])]
      exact .file hx (hr hb)
  | @link n tgt md t d _ ih =>
    intro k path ht hb
    have hr := ih k path (fun s ⟨m, md, h⟩ => ht s ⟨m, md, List.mem_cons_of_mem _ h⟩)
    simp only [filterNodes, Spec.keep] at hb ⊢
    by_cases hf : filter (path ++ [n]) = false
    · rw [if_pos hf] at hb ⊢
      rw [if_pos (.inl hf)]
      exact hr hb
    · rw [if_neg hf] at hb ⊢
      rw [if_neg (by simp [hf])]
      exact .link (hr hb)
  | @dir n id md t u sub d hu _ _ ih1 ih2 =>
    intro k path ht hb
    have hr := ih2 k path (fun s ⟨m, md, h⟩ => ht s ⟨m, md, List.mem_cons_of_mem _ h⟩)
    simp only [filterNodes, Spec.keep] at hb ⊢
    by_cases hf : filter (path ++ [n]) = false
    · rw [if_pos hf] at hb ⊢
      rw [if_pos hf]
      exact hr hb
    · rw [if_neg hf] at hb ⊢
      rw [if_neg hf]
      have htall := ht id ⟨n, md, List.mem_cons_self⟩
      obtain ⟨k, rfl⟩ : ∃ j, k = j + 1 := by
        cases k with
        | zero => exact htall.elim
        | succ j => exact ⟨j, rfl⟩
      obtain ⟨u', hu', htall⟩ := htall
      obtain rfl := hS.treeAt_one (hF _ _ hu') hu
      have hc := filterTree_blob (C := C) (filter := filter) (k := k) (path := path ++ [n]) hu'
      dsimp only at hb ⊢
      rw [hc] at hb
      have hsub := ih1 k (path ++ [n]) htall (fun b h => hb b (List.mem_append_left _ (List.mem_append_left _ h)))
      obtain ⟨_, _, g⟩ := hb _ (List.mem_append_left _ (List.mem_append_right _ (List.mem_singleton_self _)))
      have hrest := hr (fun b h => hb b (List.mem_append_right _ h))
      refine .dir ?_ hsub hrest
      rw [hc]
      exact ⟨C31.filterNodes_okTree hu.1, rfl, .inr g⟩

/-- So filtering keeps to how files were cut. -/
theorem filterTree_cut {cut : Bytes → Nat} (hS : Sound C R) (hF : ∀ id t, InForest F id t → TreeAt C R id t)
    {u : Id} {d : Dir Bytes} (h : HoldsCut C R cut u d) {k : Nat} (ht : Tall (InForest F) k u)
    (hb : ∀ b ∈ (filterTree C filter F k [] u).2, WellMade C b ∧ b.kind = .tree ∧ Has C R b) :
    HoldsCut C R cut (filterTree C filter F k [] u).1 (keep filter (fun n => [n]) d) := by
  obtain ⟨t, h1, h2⟩ := h
  cases k with
  | zero => exact ht.elim
  | succ k =>
    obtain ⟨t', h3, h4⟩ := ht
    obtain rfl := hS.treeAt_one (hF _ _ h3) h1
    have hc := filterTree_blob (C := C) (filter := filter) (k := k) (path := []) h3
    rw [hc] at hb ⊢
    obtain ⟨_, _, g⟩ := hb _ (List.mem_append_right _ (List.mem_singleton_self _))
    exact ⟨_, ⟨C31.filterNodes_okTree h1.1, rfl, .inr g⟩,
      filterNodes_rel hS hF h2 k [] h4 (fun b h => hb b (List.mem_append_left _ h))⟩

end FilterDiff

end Backpak
