import Verif.Model.Ls
import Verif.Lemmas.Path

/-!
# Listing trees
-/

namespace Backpak

open Spec

variable {Id : Type} [LinearOrder Id] {F : Forest Id}

/-- What a listing below `path` should be, `At` saying what is at a relative path. -/
structure Lists (At : Path → Node Id → Prop) (path : Path) (L : List (Line Id)) : Prop where
  mem : ∀ p x, (p, x) ∈ L ↔ ∃ q, p = path ++ q ∧ At q x
  sorted : L.Pairwise (fun a b => a.1 < b.1)

/-- What is at a path below the nodes `t`. -/
def nodesAt (F : Forest Id) (t : Tree Id) (p : Path) (x : Node Id) : Prop :=
  ∃ n q, p = n :: q ∧ ((q = [] ∧ BMap.get? t n = some x) ∨
    ∃ sub md, BMap.get? t n = some ⟨.dir sub, md⟩ ∧ nodeAt F sub q = some x)

theorem nodesAt_iff {id : Id} {t : Tree Id} (h : F.get? id = some t) (p : Path) (x : Node Id) :
    nodesAt F t p x ↔ nodeAt F id p = some x := by
  constructor
  · rintro ⟨n, q, rfl, ⟨rfl, h1⟩ | ⟨sub, md, h1, h2⟩⟩
    · rw [nodeAt_one h, h1]
    · refine (nodeAt_cons h n ?_).mpr ⟨sub, md, h1, h2⟩
      rintro rfl
      rw [nodeAt_nil] at h2; cases h2
  · intro h'
    cases p with
    | nil => rw [nodeAt_nil] at h'; cases h'
    | cons n q =>
      by_cases hq : q = []
      · subst hq
        rw [nodeAt_one h] at h'
        exact ⟨n, [], rfl, .inl ⟨rfl, h'⟩⟩
      · exact ⟨n, q, rfl, .inr ((nodeAt_cons h n hq).mp h')⟩

/-- The lines for one entry. -/
theorem entry_lists {L : List (Line Id)} {path : Path} {n : Name} {x : Node Id} {At : Path → Node Id → Prop}
    (h : Lists At (path ++ [n]) L) (hAt : ∀ y, ¬ At [] y) :
    Lists (fun q y => ∃ q', q = n :: q' ∧ ((q' = [] ∧ y = x) ∨ At q' y)) path ((path ++ [n], x) :: L) := by
  refine ⟨?_, ?_⟩
  · intro p y
    rw [List.mem_cons, h.mem]
    constructor
    · rintro (he | ⟨q, rfl, hq⟩)
      · cases he
        exact ⟨[n], rfl, [], rfl, .inl ⟨rfl, rfl⟩⟩
      · exact ⟨n :: q, by simp, q, rfl, .inr hq⟩
    · rintro ⟨q, rfl, q', rfl, ⟨rfl, rfl⟩ | hq⟩
      · exact .inl rfl
      · exact .inr ⟨q', by simp, hq⟩
  · refine List.pairwise_cons.mpr ⟨?_, h.sorted⟩
    rintro ⟨p, y⟩ hp
    obtain ⟨q, rfl, hq⟩ := (h.mem p y).mp hp
    refine path_lt_of_prefix ?_
    rintro rfl
    exact hAt y hq

theorem walkNodes_ok {down : Path → Id → Res (List (Line Id))} {path : Path} (t : Tree Id) (ht : BMap.Sorted t)
    (hdown : ∀ n sub md, (n, (⟨.dir sub, md⟩ : Node Id)) ∈ t → ∃ L, down (path ++ [n]) sub = .ok L ∧
      Lists (fun q y => nodeAt F sub q = some y) (path ++ [n]) L) :
    ∃ L, walkNodes down path t = .ok L ∧ Lists (nodesAt F t) path L := by
  induction t with
  | nil =>
    refine ⟨[], rfl, ?_, .nil⟩
    intro p x
    simp [nodesAt, BMap.get?]
  | cons e t ih =>
    obtain ⟨n, x⟩ := e
    obtain ⟨L', h1, h2⟩ := ih ht.tail (fun m sub md hm => hdown m sub md (List.mem_cons_of_mem _ hm))
    have hlt := ht.head_lt
    have hsub : ∃ L, walkBelow down (path ++ [n]) x = .ok L ∧
        Lists (fun q y => ∃ sub md, x = ⟨.dir sub, md⟩ ∧ nodeAt F sub q = some y) (path ++ [n]) L := by
      obtain ⟨c, md⟩ := x
      cases c with
      | dir sub =>
        obtain ⟨L, h3, h4⟩ := hdown n sub md (List.mem_cons_self ..)
        refine ⟨L, h3, ?_, h4.sorted⟩
        intro p y
        rw [h4.mem]
        constructor
        · rintro ⟨q, hq, h5⟩; exact ⟨q, hq, sub, md, rfl, h5⟩
        · rintro ⟨q, hq, sub', md', h5, h6⟩
          cases h5; exact ⟨q, hq, h6⟩
      | file cs =>
        refine ⟨[], rfl, fun p y => ?_, .nil⟩
        constructor
        · intro h; cases h
        · rintro ⟨q, hq, sub', md', h5, h6⟩; cases h5
      | link tgt =>
        refine ⟨[], rfl, fun p y => ?_, .nil⟩
        constructor
        · intro h; cases h
        · rintro ⟨q, hq, sub', md', h5, h6⟩; cases h5
    obtain ⟨L, h3, h4⟩ := hsub
    have h5 := entry_lists (x := x) h4 (by
      rintro y ⟨sub, md, _, h⟩; rw [nodeAt_nil] at h; cases h)
    refine ⟨(path ++ [n], x) :: (L ++ L'), ?_, ?_, ?_⟩
    · simp only [walkNodes, h3, h1]
    · intro p y
      rw [← List.cons_append, List.mem_append, h5.mem, h2.mem]
      constructor
      · rintro (⟨q, rfl, q', rfl, hq⟩ | ⟨q, rfl, m, q', rfl, hq⟩)
        · refine ⟨_, rfl, n, q', rfl, ?_⟩
          rw [get?_cons, if_pos rfl]
          rcases hq with ⟨h6, rfl⟩ | ⟨sub, md, h6, h7⟩
          · exact .inl ⟨h6, rfl⟩
          · exact .inr ⟨sub, md, by rw [h6], h7⟩
        · refine ⟨_, rfl, m, q', rfl, ?_⟩
          have hm : m ∈ BMap.keys t := by
            rcases hq with ⟨_, h6⟩ | ⟨_, _, h6, _⟩
            · exact BMap.mem_keys_of_mem (BMap.mem_of_get? h6)
            · exact BMap.mem_keys_of_mem (BMap.mem_of_get? h6)
          rw [get?_cons, if_neg (ne_of_gt (hlt m hm))]
          exact hq
      · rintro ⟨q, rfl, m, q', rfl, hq⟩
        rw [get?_cons] at hq
        by_cases hm : m = n
        · subst hm
          rw [if_pos rfl] at hq
          refine .inl ⟨_, rfl, q', rfl, ?_⟩
          rcases hq with ⟨h6, h7⟩ | ⟨sub, md, h6, h7⟩
          · exact .inl ⟨h6, (Option.some.inj h7).symm⟩
          · exact .inr ⟨sub, md, Option.some.inj h6, h7⟩
        · rw [if_neg hm] at hq
          exact .inr ⟨_, rfl, m, q', rfl, hq⟩
    · rw [← List.cons_append, List.pairwise_append]
      refine ⟨h5.sorted, h2.sorted, ?_⟩
      rintro ⟨p, y⟩ hp ⟨p', y'⟩ hp'
      obtain ⟨q, rfl, q', rfl, _⟩ := (h5.mem p y).mp hp
      obtain ⟨r, rfl, m, r', rfl, hq⟩ := (h2.mem p' y').mp hp'
      have hm : m ∈ BMap.keys t := by
        rcases hq with ⟨_, h6⟩ | ⟨_, _, h6, _⟩
        · exact BMap.mem_keys_of_mem (BMap.mem_of_get? h6)
        · exact BMap.mem_keys_of_mem (BMap.mem_of_get? h6)
      exact append_lt_append.mpr (cons_lt_of_lt (hlt m hm))

theorem walkTree_ok (hF : ForestSorted F) (k : Nat) : ∀ (path : Path) (id : Id), Tall (InForest F) k id →
    ∃ L, walkTree F k path id = .ok L ∧ Lists (fun q x => nodeAt F id q = some x) path L := by
  induction k with
  | zero => intro _ _ h; exact h.elim
  | succ k ih =>
    rintro path id ⟨t, ht, hsub⟩
    obtain ⟨L, h1, h2⟩ := walkNodes_ok (F := F) (down := walkTree F k) (path := path) t (hF id t ht)
      (fun n sub md hm => ih _ _ (hsub sub ⟨n, md, hm⟩))
    refine ⟨L, ?_, ?_, h2.sorted⟩
    · have ht' : F.get? id = some t := ht
      simp only [walkTree, ht', h1]
    · intro p x
      rw [h2.mem]
      simp only [nodesAt_iff ht]

/-- Walking a node lists it and what is below it. -/
theorem walkNode_ok (hF : ForestSorted F) (path : Path) (x : Node Id)
    (hx : ∀ sub md, x = ⟨.dir sub, md⟩ → Grounded (InForest F) sub) :
    ∃ L, walkNode F path x = .ok L ∧ Lists (fun q y => (q = [] ∧ y = x) ∨
      ∃ sub md, x = ⟨.dir sub, md⟩ ∧ nodeAt F sub q = some y) path L := by
  obtain ⟨c, md⟩ := x
  cases c with
  | dir sub =>
    obtain ⟨L, h1, h2⟩ := walkTree_ok hF (F.length + 1) path sub
      ((forest_tall (hx sub md rfl)).mono (Nat.le_succ _))
    refine ⟨(path, ⟨.dir sub, md⟩) :: L, by simp only [walkNode, h1], ?_, ?_⟩
    · intro p y
      rw [List.mem_cons, h2.mem]
      constructor
      · rintro (he | ⟨q, rfl, hq⟩)
        · cases he; exact ⟨[], by simp, .inl ⟨rfl, rfl⟩⟩
        · exact ⟨q, rfl, .inr ⟨sub, md, rfl, hq⟩⟩
      · rintro ⟨q, rfl, ⟨rfl, rfl⟩ | ⟨sub', md', h3, h4⟩⟩
        · left; simp
        · cases h3; exact .inr ⟨q, rfl, h4⟩
    · refine List.pairwise_cons.mpr ⟨?_, h2.sorted⟩
      rintro ⟨p, y⟩ hp
      obtain ⟨q, rfl, hq⟩ := (h2.mem p y).mp hp
      refine path_lt_of_prefix ?_
      rintro rfl
      rw [nodeAt_nil] at hq; cases hq
  | file cs =>
    refine ⟨[(path, ⟨.file cs, md⟩)], rfl, ?_, by simp⟩
    intro p y
    rw [List.mem_singleton]
    constructor
    · intro he; cases he; exact ⟨[], by simp, .inl ⟨rfl, rfl⟩⟩
    · rintro ⟨q, rfl, ⟨rfl, rfl⟩ | ⟨sub', md', h3, h4⟩⟩
      · simp
      · cases h3
  | link tgt =>
    refine ⟨[(path, ⟨.link tgt, md⟩)], rfl, ?_, by simp⟩
    intro p y
    rw [List.mem_singleton]
    constructor
    · intro he; cases he; exact ⟨[], by simp, .inl ⟨rfl, rfl⟩⟩
    · rintro ⟨q, rfl, ⟨rfl, rfl⟩ | ⟨sub', md', h3, h4⟩⟩
      · simp
      · cases h3

end Backpak
