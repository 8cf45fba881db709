import Verif.Spec.Diff
import Verif.Spec.Walk
import Verif.Lemmas.Ls

/-!
# Comparing trees
-/

namespace Backpak

open Spec

variable {Id : Type} [LinearOrder Id] {F F1 F2 : Forest Id} {m : Bool}

/-- What is at a path at or below a node. -/
def below (F : Forest Id) (x : Node Id) : Path → Option (Node Id)
  | [] => some x
  | n :: p => match x.contents with
    | .dir sub => nodeAt F sub (n :: p)
    | _ => none

theorem below_dir {sub : Id} {md : Meta} {q : Path} (h : q ≠ []) :
    below F ⟨.dir sub, md⟩ q = nodeAt F sub q := by
  cases q with
  | nil => exact absurd rfl h
  | cons _ _ => rfl

theorem below_leaf {x : Node Id} {q : Path} (hq : q ≠ []) (h : x.contents.kind ≠ .dir) : below F x q = none := by
  cases q with
  | nil => exact absurd rfl hq
  | cons n p =>
    obtain ⟨c, md⟩ := x
    cases c with
    | dir _ => exact absurd rfl h
    | file _ => rfl
    | link _ => rfl

theorem nodeAt_below {a : Id} {t : Tree Id} (h : F.get? a = some t) {n : Name} {x : Node Id}
    (hx : BMap.get? t n = some x) (q : Path) : nodeAt F a (n :: q) = below F x q := by
  cases q with
  | nil => rw [nodeAt_one h, hx]; rfl
  | cons m q =>
    obtain ⟨c, md⟩ := x
    simp only [nodeAt, h, Option.bind_some, hx]
    cases c <;> rfl

theorem nodeAt_missing {a : Id} {t : Tree Id} (h : F.get? a = some t) {n : Name}
    (hx : BMap.get? t n = none) (q : Path) : nodeAt F a (n :: q) = none := by
  cases q with
  | nil => rw [nodeAt_one h, hx]
  | cons m q => simp only [nodeAt, h, Option.bind_some, hx]

theorem agree_nodeAt (hA : Agree F1 F2) (q : Path) : ∀ {a : Id}, Grounded (InForest F1) a → Grounded (InForest F2) a →
    nodeAt F1 a q = nodeAt F2 a q := by
  induction q with
  | nil => intro a _ _; simp [nodeAt]
  | cons n q ih =>
    intro a h1 h2
    cases h1 with
    | @mk _ t1 ht1 hs1 =>
      cases h2 with
      | @mk _ t2 ht2 hs2 =>
        have : t1 = t2 := hA a t1 t2 ht1 ht2
        subst this
        cases hx : BMap.get? t1 n with
        | none => rw [nodeAt_missing ht1 hx, nodeAt_missing ht2 hx]
        | some x =>
          rw [nodeAt_below ht1 hx, nodeAt_below ht2 hx]
          obtain ⟨c, md⟩ := x
          by_cases hq : q = []
          · subst hq; rfl
          · cases c with
            | dir sub =>
              rw [below_dir hq, below_dir hq]
              have hm : Sub t1 sub := ⟨n, md, BMap.mem_of_get? hx⟩
              exact ih (hs1 sub hm) (hs2 sub hm)
            | file _ => rw [below_leaf hq (by simp [Contents.kind]), below_leaf hq (by simp [Contents.kind])]
            | link _ => rw [below_leaf hq (by simp [Contents.kind]), below_leaf hq (by simp [Contents.kind])]

theorem not_replaced_self (x : Node Id) : ¬ Replaced x x := by simp [Replaced]

/-- Nothing is reported where nothing changed. -/
theorem reports_same (o : Option (Node Id)) (sg : Sign) (x : Node Id) : ¬ Reports m o o sg x := by
  cases sg with
  | plus => rintro ⟨h1, h2⟩; exact not_replaced_self x (h2 x h1)
  | minus => rintro ⟨h1, h2⟩; exact not_replaced_self x (h2 x h1)
  | changed => rintro ⟨h1, y, h2, _, _, h3⟩; rw [h1] at h2; cases h2; exact h3 rfl
  | md c => rintro ⟨_, h1, y, h2, h3, _⟩; rw [h1] at h2; cases h2; exact h3 rfl

theorem reports_new (o : Option (Node Id)) (sg : Sign) (x : Node Id) :
    Reports m none o sg x ↔ sg = .plus ∧ o = some x := by
  cases sg <;> simp [Reports]

theorem reports_old (o : Option (Node Id)) (sg : Sign) (x : Node Id) :
    Reports m o none sg x ↔ sg = .minus ∧ o = some x := by
  cases sg <;> simp [Reports]

/-- What the lines for some paths should be, given what is at each path before and after. -/
structure Diffs (m : Bool) (P1 P2 : Path → Option (Node Id)) (path : Path) (L : List (DiffLine Id)) : Prop where
  mem : ∀ sg p x, (sg, p, x) ∈ L ↔ ∃ q, p = path ++ q ∧ Reports m (P1 q) (P2 q) sg x
  nodup : L.Nodup

theorem Diffs.congr {P1 P2 P1' P2' : Path → Option (Node Id)} {path : Path} {L : List (DiffLine Id)}
    (h : Diffs m P1 P2 path L) (h1 : ∀ q, P1' q = P1 q) (h2 : ∀ q, P2' q = P2 q) : Diffs m P1' P2' path L :=
  ⟨fun sg p x => by simp only [h.mem, h1, h2], h.nodup⟩

theorem walkNode_below (hF : ForestSorted F) (path : Path) (x : Node Id)
    (hx : ∀ sub md, x = ⟨.dir sub, md⟩ → Grounded (InForest F) sub) :
    ∃ L, walkNode F path x = .ok L ∧ Lists (fun q y => below F x q = some y) path L := by
  obtain ⟨L, h1, h2⟩ := walkNode_ok hF path x hx
  refine ⟨L, h1, fun p y => ?_, h2.sorted⟩
  rw [h2.mem]
  have : ∀ q, ((q = [] ∧ y = x) ∨ ∃ sub md, x = ⟨.dir sub, md⟩ ∧ nodeAt F sub q = some y) ↔ below F x q = some y := by
    intro q
    obtain ⟨c, md⟩ := x
    by_cases hq : q = []
    · subst hq
      simp only [below, Option.some.injEq, nodeAt_nil]
      constructor
      · rintro (⟨_, h⟩ | ⟨_, _, _, h⟩)
        · exact h.symm
        · cases h
      · intro h; exact .inl ⟨trivial, h.symm⟩
    · cases c with
      | dir sub =>
        rw [below_dir hq]
        constructor
        · rintro (⟨h, _⟩ | ⟨sub', md', h, h'⟩)
          · exact absurd h hq
          · cases h; exact h'
        · intro h; exact .inr ⟨sub, md, rfl, h⟩
      | file cs =>
        rw [below_leaf hq (by simp [Contents.kind])]
        constructor
        · rintro (⟨h, _⟩ | ⟨sub', md', h, h'⟩)
          · exact absurd h hq
          · cases h
        · intro h; cases h
      | link cs =>
        rw [below_leaf hq (by simp [Contents.kind])]
        constructor
        · rintro (⟨h, _⟩ | ⟨sub', md', h, h'⟩)
          · exact absurd h hq
          · cases h
        · intro h; cases h
  simp only [this]

/-- All the lines for a node and what is below it. -/
theorem printAll_ok (hF : ForestSorted F) (sg : Sign) (path : Path) (x : Node Id)
    (hx : ∀ sub md, x = ⟨.dir sub, md⟩ → Grounded (InForest F) sub) :
    ∃ L, printAll F sg path x = .ok L ∧ L.Nodup ∧
      ∀ sg' p y, (sg', p, y) ∈ L ↔ sg' = sg ∧ ∃ q, p = path ++ q ∧ below F x q = some y := by
  obtain ⟨L, h1, h2⟩ := walkNode_below hF path x hx
  refine ⟨L.map (fun e => (sg, e)), by simp only [printAll, h1], ?_, ?_⟩
  · refine List.Nodup.map (fun a b h => by cases h; rfl) ?_
    exact h2.sorted.imp (fun {a b} h e => by rw [e] at h; exact lt_irrefl _ h)
  · intro sg' p y
    simp only [List.mem_map, Prod.mk.injEq]
    constructor
    · rintro ⟨e, he, rfl, rfl⟩; exact ⟨rfl, (h2.mem p y).mp he⟩
    · rintro ⟨rfl, h⟩; exact ⟨(p, y), (h2.mem p y).mpr h, rfl, rfl⟩

/-- One line, or none, for the node itself. -/
theorem diffs_single {x y : Node Id} {path : Path} {L : List (DiffLine Id)} (hn : L.Nodup)
    (hx : x.contents.kind ≠ .dir) (hy : y.contents.kind ≠ .dir)
    (h : ∀ sg p z, (sg, p, z) ∈ L ↔ p = path ∧ Reports m (some x) (some y) sg z) :
    Diffs m (below F1 x) (below F2 y) path L := by
  refine ⟨?_, hn⟩
  intro sg p z
  rw [h]
  constructor
  · rintro ⟨rfl, h'⟩; exact ⟨[], by simp, h'⟩
  · rintro ⟨q, rfl, h⟩
    by_cases hq : q = []
    · subst hq; exact ⟨by simp, h⟩
    · rw [below_leaf hq hx, below_leaf hq hy] at h
      exact absurd h (reports_same _ _ _)

omit [LinearOrder Id] in
theorem kind_ok {x : Node Id} (h : x.md.kind = x.contents.kind) : x.kind = .ok x.contents.kind := by
  simp [Node.kind, h]

/-- Nodes of different kinds. -/
theorem retyped_ok (hF1 : ForestSorted F1) (hF2 : ForestSorted F2) {x y : Node Id} (path : Path)
    (hx : ∀ sub md, x = ⟨.dir sub, md⟩ → Grounded (InForest F1) sub)
    (hy : ∀ sub md, y = ⟨.dir sub, md⟩ → Grounded (InForest F2) sub)
    (hk : x.contents.kind ≠ y.contents.kind) :
    ∃ L, printEvent m F1 F2 (.retyped path x y) = .ok L ∧ Diffs m (below F1 x) (below F2 y) path L := by
  obtain ⟨L1, h1, n1, m1⟩ := printAll_ok hF1 .minus path x hx
  obtain ⟨L2, h2, n2, m2⟩ := printAll_ok hF2 .plus path y hy
  refine ⟨L1 ++ L2, by simp only [printEvent, h1, h2], ?_, ?_⟩
  · intro sg p z
    rw [List.mem_append, m1, m2]
    have hrep : ∀ q, Reports m (below F1 x q) (below F2 y q) sg z ↔
        (sg = .minus ∧ below F1 x q = some z) ∨ (sg = .plus ∧ below F2 y q = some z) := by
      intro q
      by_cases hq : q = []
      · subst hq
        have hxy : x ≠ y := fun h => hk (by rw [h])
        cases sg with
        | plus =>
          simp only [Reports, below, reduceCtorEq, false_and, true_and, false_or]
          constructor
          · exact fun h => h.1
          · intro h; refine ⟨h, ?_⟩
            intro x' hx'; cases hx'; cases h; exact .inl hk
        | minus =>
          simp only [Reports, below, reduceCtorEq, false_and, true_and, or_false]
          constructor
          · exact fun h => h.1
          · intro h; refine ⟨h, ?_⟩
            intro x' hx'; cases hx'; cases h; exact .inl hk
        | changed =>
          simp only [Reports, below, reduceCtorEq, false_and, or_false, iff_false]
          rintro ⟨h, y', h', h1, h2, _⟩
          cases h; cases h'
          rw [h1, h2] at hk; exact hk rfl
        | md c =>
          simp only [Reports, below, reduceCtorEq, false_and, or_false, iff_false]
          rintro ⟨_, h, y', h', _, _, h1 | ⟨h1, h2⟩⟩
          · cases h; cases h'; rw [h1] at hk; exact hk rfl
          · cases h; cases h'; rw [h1, h2] at hk; exact hk rfl
      · by_cases hxd : x.contents.kind = .dir
        · have hyd : y.contents.kind ≠ .dir := fun h => hk (by rw [hxd, h])
          rw [below_leaf hq hyd, reports_old]
          simp
        · rw [below_leaf hq hxd, reports_new]
          simp
    simp only [hrep]
    constructor
    · rintro (⟨rfl, q, rfl, h⟩ | ⟨rfl, q, rfl, h⟩)
      · exact ⟨q, rfl, .inl ⟨rfl, h⟩⟩
      · exact ⟨q, rfl, .inr ⟨rfl, h⟩⟩
    · rintro ⟨q, rfl, ⟨rfl, h⟩ | ⟨rfl, h⟩⟩
      · exact .inl ⟨rfl, q, rfl, h⟩
      · exact .inr ⟨rfl, q, rfl, h⟩
  · refine List.nodup_append.mpr ⟨n1, n2, ?_⟩
    rintro ⟨sg, p, z⟩ ha ⟨sg', p', z'⟩ hb he
    cases he
    have h1 := ((m1 _ _ _).mp ha).1
    have h2 := ((m2 _ _ _).mp hb).1
    rw [h1] at h2; cases h2

/-- Files, or symlinks. -/
theorem leaves_ok {x y : Node Id} (path : Path) (out : List (DiffLine Id)) (hx : x.contents.kind ≠ .dir)
    (hk : x.contents.kind = y.contents.kind) (hu : ∀ b, x.contents.kind ≠ .unsupported b) :
    ∃ L, (if x.contents ≠ y.contents then printer m F1 F2 (.contents path x y) out
        else if x.md ≠ y.md then printer m F1 F2 (.metadata path x y) out
        else printer m F1 F2 (.same path y) out) = .ok (out ++ L) ∧
      Diffs m (below F1 x) (below F2 y) path L := by
  have hy : y.contents.kind ≠ .dir := hk ▸ hx
  by_cases hc : x.contents = y.contents
  · have hrep : ¬ Replaced x y := by
      rintro (h | ⟨_, h⟩)
      · exact h hk
      · exact h hc
    by_cases hm : x.md = y.md
    · have hxy : x = y := by cases x; cases y; simp_all
      refine ⟨[], by simp [hc, hm, printer, printEvent], ?_⟩
      subst hxy
      refine diffs_single (by simp) hx hx ?_
      intro sg p z
      simp only [List.not_mem_nil, false_iff]
      rintro ⟨_, h⟩; exact reports_same _ _ _ h
    · refine ⟨if m then [(.md (metaDiffChar x.md y.md), path, y)] else [], by simp [hc, hm, printer, printEvent], ?_⟩
      refine diffs_single (by split <;> simp) hx hy ?_
      intro sg p z
      cases sg with
      | plus =>
        constructor
        · intro h; split at h <;> simp at h
        · rintro ⟨_, h1, h2⟩; cases h1; exact absurd (h2 x rfl) hrep
      | minus =>
        constructor
        · intro h; split at h <;> simp at h
        · rintro ⟨_, h1, h2⟩; cases h1; exact absurd (h2 y rfl) hrep
      | changed =>
        constructor
        · intro h; split at h <;> simp at h
        · rintro ⟨_, h1, y', h2, _, _, h3⟩; cases h1; cases h2; exact absurd hc h3
      | md c =>
        constructor
        · intro h
          split at h
          · rename_i hmm
            simp only [List.mem_singleton, Prod.mk.injEq, Sign.md.injEq] at h
            obtain ⟨rfl, rfl, rfl⟩ := h
            exact ⟨rfl, hmm, rfl, x, rfl, hm, rfl, .inl hc⟩
          · cases h
        · rintro ⟨rfl, h0, h1, x', h2, _, rfl, _⟩
          cases h1; cases h2
          simp [h0]
  · obtain ⟨c, md⟩ := x
    obtain ⟨c', md'⟩ := y
    cases c with
    | dir _ => exact absurd rfl hx
    | file cs =>
      cases c' with
      | dir _ => exact absurd rfl hy
      | link _ => cases hk
      | file cs' =>
        simp only at hc
        refine ⟨[(.changed, path, ⟨.file cs, md⟩)], by simp [hc, printer, printEvent], ?_⟩
        refine diffs_single (by simp) hx hy ?_
        intro sg p z
        simp only [List.mem_singleton, Prod.mk.injEq]
        cases sg with
        | plus =>
          constructor
          · rintro ⟨h, _⟩; cases h
          · rintro ⟨_, _, h⟩
            rcases h _ rfl with h | ⟨h, _⟩
            · exact absurd hk (by cases ‹some _ = some _›; exact h)
            · cases h
        | minus =>
          constructor
          · rintro ⟨h, _⟩; cases h
          · rintro ⟨_, h0, h⟩
            cases h0
            rcases h _ rfl with h | ⟨h, _⟩
            · exact absurd hk h
            · cases h
        | changed =>
          constructor
          · rintro ⟨_, rfl, rfl⟩; exact ⟨rfl, rfl, _, rfl, rfl, rfl, hc⟩
          · rintro ⟨rfl, h1, _⟩; cases h1; exact ⟨rfl, rfl, rfl⟩
        | md ch =>
          constructor
          · rintro ⟨h, _⟩; cases h
          · rintro ⟨_, _, h1, x', h2, _, _, h3 | ⟨h3, _⟩⟩
            · cases h1; cases h2; exact absurd h3 hc
            · cases h2; cases h3
    | link tgt =>
      cases c' with
      | dir _ => exact absurd rfl hy
      | file _ => cases hk
      | link tgt' =>
        simp only at hc
        refine ⟨[(.minus, path, ⟨.link tgt, md⟩), (.plus, path, ⟨.link tgt', md'⟩)], by simp [hc, printer, printEvent], ?_⟩
        refine diffs_single (by simp) hx hy ?_
        intro sg p z
        simp only [List.mem_cons, List.not_mem_nil, or_false, Prod.mk.injEq]
        cases sg with
        | plus =>
          constructor
          · rintro (⟨h, _⟩ | ⟨_, rfl, rfl⟩)
            · cases h
            · refine ⟨rfl, rfl, ?_⟩
              intro x' hx'; cases hx'; exact .inr ⟨rfl, hc⟩
          · rintro ⟨rfl, h1, _⟩; cases h1; exact .inr ⟨rfl, rfl, rfl⟩
        | minus =>
          constructor
          · rintro (⟨_, rfl, rfl⟩ | ⟨h, _⟩)
            · refine ⟨rfl, rfl, ?_⟩
              intro x' hx'; cases hx'; exact .inr ⟨rfl, hc⟩
            · cases h
          · rintro ⟨rfl, h1, _⟩; cases h1; exact .inl ⟨rfl, rfl, rfl⟩
        | changed =>
          constructor
          · rintro (⟨h, _⟩ | ⟨h, _⟩) <;> cases h
          · rintro ⟨_, h1, y', h2, h3, _⟩; cases h1; cases h3
        | md ch =>
          constructor
          · rintro (⟨h, _⟩ | ⟨h, _⟩) <;> cases h
          · rintro ⟨_, _, h1, x', h2, _, _, h3 | ⟨h3, _⟩⟩
            · cases h1; cases h2; exact absurd h3 hc
            · cases h2; cases h3

/-- Directories. -/
theorem dirs_ok (hA : Agree F1 F2) {a b : Id} {md md' : Meta} (path : Path) (out : List (DiffLine Id))
    {down : Path → Id → Id → List (DiffLine Id) → Res (List (DiffLine Id))}
    (ha : Grounded (InForest F1) a) (hb : Grounded (InForest F2) b)
    (hdown : a ≠ b → ∃ L, down path a b out = .ok (out ++ L) ∧ Diffs m (nodeAt F1 a) (nodeAt F2 b) path L)
    (hx : md.kind = .dir) (hy : md'.kind = .dir) :
    ∃ L, compareNodes (printer m F1 F2) down path ⟨.dir a, md⟩ ⟨.dir b, md'⟩ out = .ok (out ++ L) ∧
      Diffs m (below F1 ⟨.dir a, md⟩) (below F2 ⟨.dir b, md'⟩) path L := by
  -- the lines below
  obtain ⟨L, h1, h2⟩ : ∃ L, (if a = b then .ok out else down path a b out) = .ok (out ++ L) ∧
      Diffs m (nodeAt F1 a) (nodeAt F2 b) path L := by
    by_cases hab : a = b
    · subst hab
      refine ⟨[], by simp, ?_, by simp⟩
      intro sg p z
      simp only [List.not_mem_nil, false_iff, not_exists, not_and]
      intro q _ h
      rw [agree_nodeAt hA q ha hb] at h
      exact reports_same _ _ _ h
    · obtain ⟨L, h1, h2⟩ := hdown hab
      exact ⟨L, by rw [if_neg hab, h1], h2⟩
  -- what is reported at the node itself
  have hself : ∀ sg z, Reports m (some (⟨.dir a, md⟩ : Node Id)) (some ⟨.dir b, md'⟩) sg z ↔
      m = true ∧ md ≠ md' ∧ sg = .md (metaDiffChar md md') ∧ z = ⟨.dir b, md'⟩ := by
    intro sg z
    cases sg with
    | plus =>
      constructor
      · rintro ⟨h3, h4⟩
        cases h3
        rcases h4 _ rfl with h | ⟨h, _⟩
        · exact absurd rfl h
        · cases h
      · rintro ⟨_, _, h, _⟩; cases h
    | minus =>
      constructor
      · rintro ⟨h3, h4⟩
        cases h3
        rcases h4 _ rfl with h | ⟨h, _⟩
        · exact absurd rfl h
        · cases h
      · rintro ⟨_, _, h, _⟩; cases h
    | changed =>
      constructor
      · rintro ⟨h3, y, h4, h5, _⟩; cases h3; cases h5
      · rintro ⟨_, _, h, _⟩; cases h
    | md c =>
      constructor
      · rintro ⟨h0, h3, x, h4, h5, rfl, _⟩
        cases h3; cases h4
        exact ⟨h0, h5, rfl, rfl⟩
      · rintro ⟨h0, h3, h4, rfl⟩
        cases h4
        exact ⟨h0, rfl, _, rfl, h3, rfl, .inr ⟨rfl, rfl⟩⟩
  have hall : ∀ sg p z, (∃ q, p = path ++ q ∧ Reports m (below F1 ⟨.dir a, md⟩ q) (below F2 ⟨.dir b, md'⟩ q) sg z) ↔
      (sg, p, z) ∈ L ∨ (p = path ∧ m = true ∧ md ≠ md' ∧ sg = .md (metaDiffChar md md') ∧ z = ⟨.dir b, md'⟩) := by
    intro sg p z
    rw [h2.mem]
    constructor
    · rintro ⟨q, rfl, h⟩
      by_cases hq : q = []
      · subst hq
        right
        exact ⟨by simp, (hself sg z).mp h⟩
      · rw [below_dir hq, below_dir hq] at h
        exact .inl ⟨q, rfl, h⟩
    · rintro (⟨q, rfl, h⟩ | ⟨rfl, h⟩)
      · have hq : q ≠ [] := by
          rintro rfl
          rw [nodeAt_nil, nodeAt_nil] at h
          exact reports_same _ _ _ h
        exact ⟨q, rfl, by rw [below_dir hq, below_dir hq]; exact h⟩
      · exact ⟨[], by simp, (hself sg z).mpr h⟩
  have hnot : ∀ sg z, (sg, path, z) ∉ L := by
    intro sg z h
    obtain ⟨q, hq, h⟩ := (h2.mem _ _ _).mp h
    have : q = [] := by simpa using hq.symm
    subst this
    rw [nodeAt_nil, nodeAt_nil] at h
    exact reports_same _ _ _ h
  have hk1 : Node.kind (⟨.dir a, md⟩ : Node Id) = .ok .dir := kind_ok hx
  have hk2 : Node.kind (⟨.dir b, md'⟩ : Node Id) = .ok .dir := kind_ok hy
  unfold compareNodes
  simp only [hk1, hk2, h1]
  by_cases hmd : md = md'
  · refine ⟨L, ?_, ?_, h2.nodup⟩
    · simp only [hmd, if_true, printer, printEvent, List.append_nil, ite_self]
    · intro sg p z
      rw [hall]
      constructor
      · exact .inl
      · rintro (h | ⟨_, _, h, _⟩)
        · exact h
        · exact absurd hmd h
  · refine ⟨L ++ (if m then [(.md (metaDiffChar md md'), path, ⟨.dir b, md'⟩)] else []), ?_, ?_, ?_⟩
    · simp only [hmd, if_false, printer, printEvent, List.append_assoc]
    · intro sg p z
      rw [hall, List.mem_append]
      refine or_congr Iff.rfl ?_
      cases m
      · simp
      · simp only [if_true, List.mem_singleton, Prod.mk.injEq, true_and]
        constructor
        · rintro ⟨rfl, rfl, rfl⟩; exact ⟨rfl, hmd, rfl, rfl⟩
        · rintro ⟨rfl, _, rfl, rfl⟩; exact ⟨rfl, rfl, rfl⟩
    · refine List.nodup_append.mpr ⟨h2.nodup, by split <;> simp, ?_⟩
      rintro e he e' he' rfl
      split at he'
      · rw [List.mem_singleton] at he'
        subst he'
        exact hnot _ _ he
      · cases he'

/-- What comparing one name prints. -/
theorem compareName_ok (hF1 : ForestSorted F1) (hF2 : ForestSorted F2) (hA : Agree F1 F2) {a b : Id} {t1 t2 : Tree Id} (ht1 : F1.get? a = some t1) (ht2 : F2.get? b = some t2)
    (hs1 : ∀ s, Sub t1 s → Grounded (InForest F1) s) (hs2 : ∀ s, Sub t2 s → Grounded (InForest F2) s)
    {down : Path → Id → Id → List (DiffLine Id) → Res (List (DiffLine Id))} (path : Path)
    (n : Name) (hn : n ∈ BMap.keys t1 ∨ n ∈ BMap.keys t2) (out : List (DiffLine Id))
    (hk : ∀ x y, BMap.get? t1 n = some x → BMap.get? t2 n = some y →
      x.md.kind = x.contents.kind ∧ y.md.kind = y.contents.kind)
    (hdown : ∀ s1 md1 s2 md2, BMap.get? t1 n = some ⟨.dir s1, md1⟩ → BMap.get? t2 n = some ⟨.dir s2, md2⟩ → s1 ≠ s2 →
      ∃ L, down (path ++ [n]) s1 s2 out = .ok (out ++ L) ∧ Diffs m (nodeAt F1 s1) (nodeAt F2 s2) (path ++ [n]) L) :
    ∃ L, compareName (printer m F1 F2) down path t1 t2 n out = .ok (out ++ L) ∧
      Diffs m (fun q => nodeAt F1 a (n :: q)) (fun q => nodeAt F2 b (n :: q)) (path ++ [n]) L := by
  have sub1 : ∀ x, BMap.get? t1 n = some x → ∀ s md, x = ⟨.dir s, md⟩ → Sub t1 s := by
    rintro x hx s md rfl; exact ⟨n, md, BMap.mem_of_get? hx⟩
  have sub2 : ∀ x, BMap.get? t2 n = some x → ∀ s md, x = ⟨.dir s, md⟩ → Sub t2 s := by
    rintro x hx s md rfl; exact ⟨n, md, BMap.mem_of_get? hx⟩
  unfold compareName
  cases hx : BMap.get? t1 n with
  | none =>
    cases hy : BMap.get? t2 n with
    | none =>
      rw [BMap.get?_eq_none_iff] at hx hy
      exact absurd hn (by simp [hx, hy])
    | some y =>
      obtain ⟨L, h1, h2, h3⟩ := printAll_ok hF2 .plus (path ++ [n]) y
        (fun s md e => hs2 s (sub2 y hy s md e))
      refine ⟨L, by simp only [printer, printEvent, h1], ?_, h2⟩
      intro sg p z
      simp only [h3, nodeAt_missing ht1 hx, nodeAt_below ht2 hy, reports_new]
      constructor
      · rintro ⟨rfl, q, rfl, h⟩; exact ⟨q, rfl, rfl, h⟩
      · rintro ⟨q, rfl, rfl, h⟩; exact ⟨rfl, q, rfl, h⟩
  | some x =>
    cases hy : BMap.get? t2 n with
    | none =>
      obtain ⟨L, h1, h2, h3⟩ := printAll_ok hF1 .minus (path ++ [n]) x
        (fun s md e => hs1 s (sub1 x hx s md e))
      refine ⟨L, by simp only [printer, printEvent, h1], ?_, h2⟩
      intro sg p z
      simp only [h3, nodeAt_missing ht2 hy, nodeAt_below ht1 hx, reports_old]
      constructor
      · rintro ⟨rfl, q, rfl, h⟩; exact ⟨q, rfl, rfl, h⟩
      · rintro ⟨q, rfl, rfl, h⟩; exact ⟨rfl, q, rfl, h⟩
    | some y =>
      obtain ⟨hkx, hky⟩ := hk x y hx hy
      suffices h : ∃ L, compareNodes (printer m F1 F2) down (path ++ [n]) x y out = .ok (out ++ L) ∧
          Diffs m (below F1 x) (below F2 y) (path ++ [n]) L by
        obtain ⟨L, h1, h2⟩ := h
        exact ⟨L, h1, h2.congr (fun q => nodeAt_below ht1 hx q) (fun q => nodeAt_below ht2 hy q)⟩
      have hgx := fun s md e => hs1 s (sub1 x hx s md e)
      have hgy := fun s md e => hs2 s (sub2 y hy s md e)
      have hsx := sub1 x hx
      have hsy := sub2 y hy
      have hkx' := kind_ok hkx
      have hky' := kind_ok hky
      have retyped : x.contents.kind ≠ y.contents.kind →
          ∃ L, printer m F1 F2 (.retyped (path ++ [n]) x y) out = .ok (out ++ L) ∧
            Diffs m (below F1 x) (below F2 y) (path ++ [n]) L := by
        intro hk
        obtain ⟨L, h1, h2⟩ := retyped_ok (m := m) hF1 hF2 (path ++ [n]) hgx hgy hk
        exact ⟨L, by simp only [printer, h1], h2⟩
      obtain ⟨c, md⟩ := x
      obtain ⟨c', md'⟩ := y
      cases c with
      | dir s =>
        cases c' with
        | dir s' =>
          exact dirs_ok hA _ out (hgx s md rfl) (hgy s' md' rfl) (hdown s md s' md' hx hy) hkx hky
        | file cs' =>
          unfold compareNodes; simp only [hkx', hky']
          exact retyped (by simp [Contents.kind])
        | link tgt' =>
          unfold compareNodes; simp only [hkx', hky']
          exact retyped (by simp [Contents.kind])
      | file cs =>
        cases c' with
        | dir s' =>
          unfold compareNodes; simp only [hkx', hky']
          exact retyped (by simp [Contents.kind])
        | file cs' =>
          have := leaves_ok (m := m) (F1 := F1) (F2 := F2) (x := ⟨.file cs, md⟩) (y := ⟨.file cs', md'⟩) (path ++ [n]) out
            (by simp [Contents.kind]) rfl (by simp [Contents.kind])
          unfold compareNodes; simp only [hkx', hky']
          simpa only [Contents.file.injEq, ne_eq] using this
        | link tgt' =>
          unfold compareNodes; simp only [hkx', hky']
          exact retyped (by simp [Contents.kind])
      | link tgt =>
        cases c' with
        | dir s' =>
          unfold compareNodes; simp only [hkx', hky']
          exact retyped (by simp [Contents.kind])
        | file cs' =>
          unfold compareNodes; simp only [hkx', hky']
          exact retyped (by simp [Contents.kind])
        | link tgt' =>
          have := leaves_ok (m := m) (F1 := F1) (F2 := F2) (x := ⟨.link tgt, md⟩) (y := ⟨.link tgt', md'⟩) (path ++ [n]) out
            (by simp [Contents.kind]) rfl (by simp [Contents.kind])
          unfold compareNodes; simp only [hkx', hky']
          simpa only [Contents.link.injEq, ne_eq] using this

/-- What comparing some names prints. -/
theorem compareNames_ok {cb : Event Id → List (DiffLine Id) → Res (List (DiffLine Id))} {t1 t2 : Tree Id}
    {down : Path → Id → Id → List (DiffLine Id) → Res (List (DiffLine Id))} {P1 P2 : Path → Option (Node Id)}
    (path : Path) (ns : List Name) (hns : ns.Nodup)
    (h : ∀ n ∈ ns, ∀ out, ∃ L, compareName cb down path t1 t2 n out = .ok (out ++ L) ∧
      Diffs m (fun q => P1 (n :: q)) (fun q => P2 (n :: q)) (path ++ [n]) L) :
    ∀ out, ∃ L, compareNames cb down path t1 t2 ns out = .ok (out ++ L) ∧
      (∀ sg p x, (sg, p, x) ∈ L ↔ ∃ n ∈ ns, ∃ q, p = path ++ n :: q ∧ Reports m (P1 (n :: q)) (P2 (n :: q)) sg x) ∧
      L.Nodup := by
  induction ns with
  | nil => intro out; exact ⟨[], by simp [compareNames], by simp, by simp⟩
  | cons n ns ih =>
    intro out
    obtain ⟨hn, hns⟩ := List.nodup_cons.mp hns
    obtain ⟨L1, h1, h2⟩ := h n List.mem_cons_self out
    obtain ⟨L2, h3, h4, h5⟩ := ih hns (fun k hk => h k (List.mem_cons_of_mem _ hk)) (out ++ L1)
    refine ⟨L1 ++ L2, by simp only [compareNames, h1, h3, List.append_assoc], ?_, ?_⟩
    · intro sg p x
      rw [List.mem_append, h2.mem, h4]
      constructor
      · rintro (⟨q, rfl, hq⟩ | ⟨k, hk, q, rfl, hq⟩)
        · exact ⟨n, List.mem_cons_self, q, by simp, hq⟩
        · exact ⟨k, List.mem_cons_of_mem _ hk, q, rfl, hq⟩
      · rintro ⟨k, hk, q, rfl, hq⟩
        rcases List.mem_cons.mp hk with rfl | hk
        · exact .inl ⟨q, by simp, hq⟩
        · exact .inr ⟨k, hk, q, rfl, hq⟩
    · refine List.nodup_append.mpr ⟨h2.nodup, h5, ?_⟩
      rintro ⟨sg, p, x⟩ ha e hb rfl
      obtain ⟨q, rfl, _⟩ := (h2.mem _ _ _).mp ha
      obtain ⟨k, hk, q', he, _⟩ := (h4 _ _ _).mp hb
      have : n = k := by
        rw [List.append_assoc, List.singleton_append] at he
        exact (List.cons.inj (List.append_cancel_left he)).1
      exact hn (this ▸ hk)

/-- What comparing two trees prints, after what has been printed. -/
theorem compareTrees_ok (hF1 : ForestSorted F1) (hF2 : ForestSorted F2) (hN1 : NodesOk F1) (hN2 : NodesOk F2)
    (hA : Agree F1 F2) (k : Nat) : ∀ (path : Path) (a b : Id), Tall (InForest F1) k a → Grounded (InForest F2) b →
    ∀ out, ∃ L, compareTrees (printer m F1 F2) F1 F2 k path a b out = .ok (out ++ L) ∧
      Diffs m (nodeAt F1 a) (nodeAt F2 b) path L := by
  induction k with
  | zero => intro _ _ _ h; exact h.elim
  | succ k ih =>
    rintro path a b ⟨t1, ht1, hs1⟩ hb out
    cases hb with
    | @mk _ t2 ht2 hs2 =>
      have hmem : ∀ n, n ∈ BSet.ofList (BMap.keys t1 ++ BMap.keys t2) ↔ n ∈ BMap.keys t1 ∨ n ∈ BMap.keys t2 := by
        intro n; rw [BSet.mem_ofList, List.mem_append]
      have hnod : (BSet.ofList (BMap.keys t1 ++ BMap.keys t2)).Nodup :=
        (BSet.sorted_ofList _).imp (fun {a b} h e => by rw [e] at h; exact lt_irrefl _ h)
      obtain ⟨L, h1, h2, h3⟩ := compareNames_ok (m := m) (P1 := nodeAt F1 a) (P2 := nodeAt F2 b)
        (cb := printer m F1 F2) (down := compareTrees (printer m F1 F2) F1 F2 k) (t1 := t1) (t2 := t2) path _ hnod
        (fun n hn out => compareName_ok hF1 hF2 hA ht1 ht2 (fun s h => (hs1 s h).grounded) hs2 path n ((hmem n).mp hn) out
          (fun x y hx hy => ⟨hN1 a t1 ht1 n x hx, hN2 b t2 ht2 n y hy⟩)
          (fun s1 md1 s2 md2 g1 g2 _ => ih _ _ _ (hs1 s1 ⟨n, md1, BMap.mem_of_get? g1⟩) (hs2 s2 ⟨n, md2, BMap.mem_of_get? g2⟩)
            out)) out
      refine ⟨L, ?_, ?_, h3⟩
      · have ht1' : F1.get? a = some t1 := ht1
        have ht2' : F2.get? b = some t2 := ht2
        simp only [compareTrees, ht1', ht2', h1]
      · intro sg p x
        rw [h2]
        constructor
        · rintro ⟨n, _, q, rfl, h⟩; exact ⟨n :: q, rfl, h⟩
        · rintro ⟨q, rfl, h⟩
          cases q with
          | nil => rw [nodeAt_nil, nodeAt_nil] at h; exact absurd h (reports_same _ _ _)
          | cons n q =>
            refine ⟨n, ?_, q, rfl, h⟩
            by_contra hn
            rw [hmem, not_or] at hn
            rw [nodeAt_missing ht1 (BMap.get?_eq_none_iff.mpr hn.1),
              nodeAt_missing ht2 (BMap.get?_eq_none_iff.mpr hn.2)] at h
            exact reports_same _ _ _ h

/-! ## Nodes that do not agree with their metadata on what they are -/

/-- Comparing two nodes fails if one of them does not agree with its metadata on what it is. -/
theorem compareNodes_kinds {S : Type} {cb : Event Id → S → Res S} {down : Path → Id → Id → S → Res S} {path : Path}
    {x y : Node Id} {s s' : S} (h : compareNodes cb down path x y s = .ok s') :
    x.md.kind = x.contents.kind ∧ y.md.kind = y.contents.kind := by
  have key : ∀ {z : Node Id} {k}, z.kind = .ok k → z.md.kind = z.contents.kind := by
    intro z k hz
    unfold Node.kind at hz
    split at hz
    · assumption
    · cases hz
  unfold compareNodes at h
  split at h
  · cases h
  · cases h
  · rename_i h1 h2
    exact ⟨key h1, key h2⟩

theorem compareName_or (hF1 : ForestSorted F1) (hF2 : ForestSorted F2) (hA : Agree F1 F2) {a b : Id} {t1 t2 : Tree Id}
    (ht1 : F1.get? a = some t1) (ht2 : F2.get? b = some t2)
    (hs1 : ∀ s, Sub t1 s → Grounded (InForest F1) s) (hs2 : ∀ s, Sub t2 s → Grounded (InForest F2) s)
    {down : Path → Id → Id → List (DiffLine Id) → Res (List (DiffLine Id))} (path : Path)
    (n : Name) (hn : n ∈ BMap.keys t1 ∨ n ∈ BMap.keys t2) {out out' : List (DiffLine Id)}
    (hdown : ∀ s1 s2, Sub t1 s1 → Sub t2 s2 → ∀ r, down (path ++ [n]) s1 s2 out = .ok r →
      ∃ L, r = out ++ L ∧ Diffs m (nodeAt F1 s1) (nodeAt F2 s2) (path ++ [n]) L)
    (h : compareName (printer m F1 F2) down path t1 t2 n out = .ok out') :
    ∃ L, out' = out ++ L ∧ Diffs m (fun q => nodeAt F1 a (n :: q)) (fun q => nodeAt F2 b (n :: q)) (path ++ [n]) L := by
  obtain ⟨L, h1, h2⟩ := compareName_ok (m := m) hF1 hF2 hA ht1 ht2 hs1 hs2 (down := down) path n hn out
    (fun x y hx hy => by
      unfold compareName at h
      rw [hx, hy] at h
      exact compareNodes_kinds h)
    (fun s1 md1 s2 md2 g1 g2 hne => by
      unfold compareName at h
      rw [g1, g2] at h
      dsimp only at h
      have hd : ∃ r, down (path ++ [n]) s1 s2 out = .ok r := by
        unfold compareNodes at h
        split at h
        · cases h
        · cases h
        · dsimp only at h
          rw [if_neg hne] at h
          split at h
          · cases h
          · rename_i r hr
            exact ⟨r, hr⟩
      obtain ⟨r, hr⟩ := hd
      obtain ⟨L, rfl, hL⟩ := hdown s1 s2 ⟨n, md1, BMap.mem_of_get? g1⟩ ⟨n, md2, BMap.mem_of_get? g2⟩ r hr
      exact ⟨L, hr, hL⟩)
  rw [h] at h1
  cases h1
  exact ⟨L, rfl, h2⟩

theorem compareNames_or {cb : Event Id → List (DiffLine Id) → Res (List (DiffLine Id))} {t1 t2 : Tree Id}
    {down : Path → Id → Id → List (DiffLine Id) → Res (List (DiffLine Id))} {P1 P2 : Path → Option (Node Id)}
    (path : Path) (ns : List Name) (hns : ns.Nodup)
    (h : ∀ n ∈ ns, ∀ out out', compareName cb down path t1 t2 n out = .ok out' →
      ∃ L, out' = out ++ L ∧ Diffs m (fun q => P1 (n :: q)) (fun q => P2 (n :: q)) (path ++ [n]) L) :
    ∀ out out', compareNames cb down path t1 t2 ns out = .ok out' → ∃ L, out' = out ++ L ∧
      (∀ sg p x, (sg, p, x) ∈ L ↔ ∃ n ∈ ns, ∃ q, p = path ++ n :: q ∧ Reports m (P1 (n :: q)) (P2 (n :: q)) sg x) ∧
      L.Nodup := by
  induction ns with
  | nil => intro out out' h; cases h; exact ⟨[], by simp, by simp, by simp⟩
  | cons n ns ih =>
    intro out out' hc
    obtain ⟨hn, hns⟩ := List.nodup_cons.mp hns
    unfold compareNames at hc
    split at hc
    · cases hc
    rename_i o1 h1
    obtain ⟨L1, rfl, h2⟩ := h n List.mem_cons_self _ _ h1
    obtain ⟨L2, rfl, h4, h5⟩ := ih hns (fun k hk => h k (List.mem_cons_of_mem _ hk)) _ _ hc
    refine ⟨L1 ++ L2, by rw [List.append_assoc], ?_, ?_⟩
    · intro sg p x
      rw [List.mem_append, h2.mem, h4]
      constructor
      · rintro (⟨q, rfl, hq⟩ | ⟨k, hk, q, rfl, hq⟩)
        · exact ⟨n, List.mem_cons_self, q, by simp, hq⟩
        · exact ⟨k, List.mem_cons_of_mem _ hk, q, rfl, hq⟩
      · rintro ⟨k, hk, q, rfl, hq⟩
        rcases List.mem_cons.mp hk with rfl | hk
        · exact .inl ⟨q, by simp, hq⟩
        · exact .inr ⟨k, hk, q, rfl, hq⟩
    · refine List.nodup_append.mpr ⟨h2.nodup, h5, ?_⟩
      rintro ⟨sg, p, x⟩ ha e hb rfl
      obtain ⟨q, rfl, _⟩ := (h2.mem _ _ _).mp ha
      obtain ⟨k, hk, q', he, _⟩ := (h4 _ _ _).mp hb
      have : n = k := by
        rw [List.append_assoc, List.singleton_append] at he
        exact (List.cons.inj (List.append_cancel_left he)).1
      exact hn (this ▸ hk)

/-- What comparing two trees prints, if it succeeds. -/
theorem compareTrees_or (hF1 : ForestSorted F1) (hF2 : ForestSorted F2) (hA : Agree F1 F2) (k : Nat) :
    ∀ (path : Path) (a b : Id), Grounded (InForest F1) a → Grounded (InForest F2) b →
    ∀ out out', compareTrees (printer m F1 F2) F1 F2 k path a b out = .ok out' →
      ∃ L, out' = out ++ L ∧ Diffs m (nodeAt F1 a) (nodeAt F2 b) path L := by
  induction k with
  | zero => intro _ _ _ _ _ _ _ h; cases h
  | succ k ih =>
    rintro path a b ha hb out out' hc
    cases ha with
    | @mk _ t1 ht1 hs1 =>
    cases hb with
    | @mk _ t2 ht2 hs2 =>
      have ht1' : F1.get? a = some t1 := ht1
      have ht2' : F2.get? b = some t2 := ht2
      simp only [compareTrees, ht1', ht2'] at hc
      have hmem : ∀ n, n ∈ BSet.ofList (BMap.keys t1 ++ BMap.keys t2) ↔ n ∈ BMap.keys t1 ∨ n ∈ BMap.keys t2 := by
        intro n; rw [BSet.mem_ofList, List.mem_append]
      have hnod : (BSet.ofList (BMap.keys t1 ++ BMap.keys t2)).Nodup :=
        (BSet.sorted_ofList _).imp (fun {a b} h e => by rw [e] at h; exact lt_irrefl _ h)
      obtain ⟨L, h1, h2, h3⟩ := compareNames_or (m := m) (P1 := nodeAt F1 a) (P2 := nodeAt F2 b) path _ hnod
        (fun n hn out out' hc => compareName_or hF1 hF2 hA ht1 ht2 hs1 hs2 path n ((hmem n).mp hn)
          (fun s1 s2 g1 g2 r hr => ih _ _ _ (hs1 s1 g1) (hs2 s2 g2) out r hr) hc) out out' hc
      refine ⟨L, h1, ?_, h3⟩
      intro sg p x
      rw [h2]
      constructor
      · rintro ⟨n, _, q, rfl, h⟩; exact ⟨n :: q, rfl, h⟩
      · rintro ⟨q, rfl, h⟩
        cases q with
        | nil => rw [nodeAt_nil, nodeAt_nil] at h; exact absurd h (reports_same _ _ _)
        | cons n q =>
          refine ⟨n, ?_, q, rfl, h⟩
          by_contra hn
          rw [hmem, not_or] at hn
          rw [nodeAt_missing ht1 (BMap.get?_eq_none_iff.mpr hn.1),
            nodeAt_missing ht2 (BMap.get?_eq_none_iff.mpr hn.2)] at h
          exact reports_same _ _ _ h

end Backpak
