import Verif.Spec.Path
import Verif.Spec.Diff
import Verif.Spec.Walk
import Verif.Lemmas.Parent
import Verif.Lemmas.ReadBack
import Verif.Lemmas.BMap

/-!
# What is at a path
-/

namespace Backpak

open Spec

variable {Id : Type} [LinearOrder Id] {F : Forest Id} {PF : List Id → Bytes → Prop}

/-- The forest's trees are proper maps. -/
def ForestSorted (F : Forest Id) : Prop := ∀ id t, F.get? id = some t → BMap.Sorted t

theorem nodeAt_one {id : Id} {t : Tree Id} (h : F.get? id = some t) (n : Name) :
    nodeAt F id [n] = BMap.get? t n := by
  simp [nodeAt, h]

theorem nodeAt_cons {id : Id} {t : Tree Id} (h : F.get? id = some t) (n : Name) {p : Path} (hp : p ≠ [])
    {x : Node Id} : nodeAt F id (n :: p) = some x ↔
      ∃ sub md, BMap.get? t n = some ⟨.dir sub, md⟩ ∧ nodeAt F sub p = some x := by
  cases p with
  | nil => exact absurd rfl hp
  | cons m p =>
    simp only [nodeAt, h, Option.bind_some]
    split
    · rename_i sub md he
      constructor
      · intro h'; exact ⟨sub, md, he, h'⟩
      · rintro ⟨sub', md', he', h'⟩
        rw [he] at he'; cases he'; exact h'
    · rename_i hne
      constructor
      · intro h'; cases h'
      · rintro ⟨sub', md', he', h'⟩
        exact absurd he' (hne sub' md')

theorem nodeAt_nil {id : Id} : nodeAt F id [] = none := by simp [nodeAt]

theorem get?_cons (t : Tree Id) (n n' : Name) (x : Node Id) :
    BMap.get? ((n', x) :: t) n = if n = n' then some x else BMap.get? t n := by
  by_cases h : n = n'
  · subst h; simp [BMap.get?]
  · simp [BMap.get?, h, Ne.symm h]

/-- Looking a name up in a tree and in the directory it stands for. -/
theorem child_rel {PT : Id → Tree Id → Prop} {t : Tree Id} {d : Dir Bytes} (h : DirRel PF PT t d) (n : Name) :
    (BMap.get? t n = none ∧ child d n = none) ∨
    (∃ x e, BMap.get? t n = some x ∧ child d n = some e ∧ NodeIs PF x e.1 ∧
      ∀ sub md, x = ⟨.dir sub, md⟩ → ∃ u, PT sub u ∧ DirRel PF PT u e.2) := by
  induction h with
  | nil => left; simp [BMap.get?, child]
  | @file n' cs md t x d hx _ ih =>
    rw [get?_cons]; unfold child
    by_cases he : n = n'
    · right
      exact ⟨⟨.file cs, md⟩, ((md, some (.file x)), .nil), if_pos he, if_pos he, ⟨rfl, hx⟩,
        fun _ _ h => by cases h⟩
    · rw [if_neg he, if_neg he]; exact ih
  | @link n' tgt md t d _ ih =>
    rw [get?_cons]; unfold child
    by_cases he : n = n'
    · right
      exact ⟨⟨.link tgt, md⟩, ((md, some (.link tgt)), .nil), if_pos he, if_pos he, ⟨rfl, rfl⟩,
        fun _ _ h => by cases h⟩
    · rw [if_neg he, if_neg he]; exact ih
  | @dir n' id md t t' sub d hid hsub _ ih1 ih =>
    rw [get?_cons]; unfold child
    by_cases he : n = n'
    · right
      exact ⟨⟨.dir id, md⟩, ((md, none), sub), if_pos he, if_pos he, rfl,
        fun _ _ h => by cases h; exact ⟨t', hid, hsub⟩⟩
    · rw [if_neg he, if_neg he]; exact ih

/-- Looking a path up in trees and in the directory they stand for. -/
theorem entry_rel (p : Path) : ∀ {id : Id} {t : Tree Id} {d : Dir Bytes}, F.get? id = some t →
    HeldIn PF F t d →
    (nodeAt F id p = none ∧ entry d p = none) ∨
    (∃ x e, nodeAt F id p = some x ∧ entry d p = some e ∧ NodeIs PF x e) := by
  induction p with
  | nil => intro id t d _ _; left; simp [nodeAt, entry]
  | cons n p ih =>
    intro id t d ht hd
    cases p with
    | nil =>
      rw [nodeAt_one ht]
      rcases child_rel hd n with ⟨h1, h2⟩ | ⟨x, e, h1, h2, h3, _⟩
      · left; exact ⟨h1, by simp [entry, h2]⟩
      · right; exact ⟨x, e.1, h1, by simp [entry, h2], h3⟩
    | cons m p =>
      simp only [nodeAt, entry, ht, Option.bind_some]
      rcases child_rel hd n with ⟨h1, h2⟩ | ⟨⟨c, md⟩, ⟨⟨md', l⟩, sub⟩, h1, h2, h3, h4⟩
      · left; simp [h1, h2]
      · rw [h1, h2]
        cases c with
        | dir s =>
          cases l with
          | none =>
            obtain ⟨u, h5, h6⟩ := h4 s md rfl
            exact ih h5 h6
          | some l => cases l <;> exact h3.elim
        | file cs =>
          left
          cases l with
          | none => exact h3.elim
          | some l => exact ⟨rfl, rfl⟩
        | link tgt =>
          left
          cases l with
          | none => exact h3.elim
          | some l => exact ⟨rfl, rfl⟩

/-- A snapshot's forest: what loading it gives, in a repository in good order. -/
structure Loaded (C : Codec Id) (R : Repo Id) (F : Forest Id) (root : Id) (d : Dir Bytes) : Prop where
  exact : ∀ id t, F.get? id = some t ↔ Reaches (TreeAt C R) root id ∧ TreeAt C R id t
  held : ∃ t, F.get? root = some t ∧ HeldIn (FileHolds C R) F t d

theorem load_from {C : Codec Id} {R : Repo Id} {src : Source Id} (hS : Sound C R) (ho : Opens R src) {root : Id}
    {d : Dir Bytes} (h : Holds C R root d) {cache : Forest Id} (hc : CacheOk C R cache) :
    ∃ F cache', forestFromRoot C src root cache = .ok (F, cache') ∧ Loaded C R F root d ∧ CacheOk C R cache' := by
  obtain ⟨F, cache', h1, h2⟩ := holds_forest hS ho h hc
  refine ⟨F, cache', h1, ⟨C23.forest_exact hS ho root _ F cache' hc h1, h2⟩, ?_⟩
  exact (C23.appendTree_sound hS ho _ [] root ([], cache) (F, cache')
    (by simp [BMap.Sorted, BMap.keys]) hc h1).2.1

theorem load {C : Codec Id} {R : Repo Id} {src : Source Id} (hS : Sound C R) (ho : Opens R src) {root : Id}
    {d : Dir Bytes} (h : Holds C R root d) :
    ∃ F cache, forestFromRoot C src root (newTreeCache C) = .ok (F, cache) ∧ Loaded C R F root d := by
  obtain ⟨F, cache, h1, h2⟩ := holds_forest hS ho h newTreeCache_ok
  exact ⟨F, cache, h1, C23.forest_exact hS ho root _ F cache newTreeCache_ok h1, h2⟩

namespace Loaded
variable {C : Codec Id} {R : Repo Id} {root : Id} {d : Dir Bytes}

theorem sorted (h : Loaded C R F root d) : ForestSorted F :=
  fun id t ht => ((h.exact id t).mp ht).2.1.sorted

theorem grounded (h : Loaded C R F root d) : Grounded (InForest F) root := by
  obtain ⟨t, h1, h2⟩ := h.held
  exact .mk h1 (dirRel_grounded h2)

theorem tall (h : Loaded C R F root d) : Tall (InForest F) (F.length + 1) root :=
  (forest_tall h.grounded).mono (Nat.le_succ _)

theorem entry_rel (h : Loaded C R F root d) (p : Path) :
    (nodeAt F root p = none ∧ entry d p = none) ∨
    (∃ x e, nodeAt F root p = some x ∧ entry d p = some e ∧ NodeIs (FileHolds C R) x e) := by
  obtain ⟨t, h1, h2⟩ := h.held
  exact Backpak.entry_rel p h1 h2

/-- Every tree of the forest stands for a directory of which every entry says what it is. -/
theorem reached {P : Dir Bytes → Prop} (hP : ∀ n md sub rest, P (.dir n md sub rest) → P sub ∧ P rest)
    (hP' : ∀ n md l rest, P (.leaf n md l rest) → P rest) {T : Id → Tree Id → Prop}
    (hone : ∀ id t t', T id t → T id t' → t = t') {PF : List Id → Bytes → Prop} {id id' : Id}
    (hr : Reaches T id id') : ∀ {t : Tree Id} {d : Dir Bytes}, T id t → DirRel PF T t d → P d →
    ∃ t' d', T id' t' ∧ DirRel PF T t' d' ∧ P d' := by
  induction hr with
  | refl => intro t d h1 h2 h3; exact ⟨t, d, h1, h2, h3⟩
  | @step id t0 n sub md id' h1 h2 _ ih =>
    intro t d h3 h4 h5
    have := hone _ _ _ h1 h3
    subst this
    clear h1 h3
    have : ∃ u d', T sub u ∧ DirRel PF T u d' ∧ P d' := by
      induction h4 with
      | nil => cases h2
      | file _ _ ih' =>
        rcases List.mem_cons.mp h2 with h | h
        · cases h
        · exact ih' h (hP' _ _ _ _ h5)
      | link _ ih' =>
        rcases List.mem_cons.mp h2 with h | h
        · cases h
        · exact ih' h (hP' _ _ _ _ h5)
      | dir g1 g2 _ _ ih' =>
        rcases List.mem_cons.mp h2 with h | h
        · cases h; exact ⟨_, _, g1, g2, (hP _ _ _ _ h5).1⟩
        · exact ih' h (hP _ _ _ _ h5).2
    obtain ⟨u, d', g1, g2, g3⟩ := this
    exact ih g1 g2 g3

theorem kinds_of {PT : Id → Tree Id → Prop} {PF : List Id → Bytes → Prop} {t : Tree Id} {d : Dir Bytes}
    (h : DirRel PF PT t d) (hk : d.KindsOk) : ∀ e ∈ t, e.2.md.kind = e.2.contents.kind := by
  induction h with
  | nil => intro e he; cases he
  | file _ _ ih =>
    intro e he
    rcases List.mem_cons.mp he with rfl | he
    · exact hk.1
    · exact ih hk.2 e he
  | link _ ih =>
    intro e he
    rcases List.mem_cons.mp he with rfl | he
    · exact hk.1
    · exact ih hk.2 e he
  | dir _ _ _ _ ih =>
    intro e he
    rcases List.mem_cons.mp he with rfl | he
    · exact hk.1
    · exact ih hk.2.2 e he

/-- If every entry says what it is then so does every node. -/
theorem nodesOk (hS : Sound C R) (h : Loaded C R F root d) (hd : Holds C R root d) (hk : d.KindsOk) :
    NodesOk F := by
  intro id t ht n x hx
  obtain ⟨hr, hta⟩ := (h.exact id t).mp ht
  obtain ⟨t0, h1, h2⟩ := hd
  obtain ⟨t', d', g1, g2, g3⟩ := reached (T := TreeAt C R) (P := Dir.KindsOk) (fun n md sub rest h => h.2)
    (fun n md l rest h => by cases l <;> exact h.2) (fun _ _ _ a b => hS.treeAt_one a b) hr h1 h2 hk
  have := hS.treeAt_one hta g1
  subst this
  exact kinds_of g2 g3 _ (BMap.mem_of_get? hx)

end Loaded

/-- Forests of the same repository agree. -/
theorem loaded_agree {C : Codec Id} {R : Repo Id} (hS : Sound C R) {F1 F2 : Forest Id} {r1 r2 : Id}
    {d1 d2 : Dir Bytes} (h1 : Loaded C R F1 r1 d1) (h2 : Loaded C R F2 r2 d2) : Agree F1 F2 :=
  fun id t1 t2 g1 g2 => hS.treeAt_one ((h1.exact id t1).mp g1).2 ((h2.exact id t2).mp g2).2

theorem path_lt_of_prefix {p q : Path} (h : q ≠ []) : p < p ++ q := by
  induction p with
  | nil => cases q with
    | nil => exact absurd rfl h
    | cons a q => exact List.Lex.nil
  | cons a p ih => exact List.Lex.cons ih

theorem append_lt_append {p a b : Path} : p ++ a < p ++ b ↔ a < b := by
  induction p with
  | nil => simp
  | cons x p ih => rw [List.cons_append, List.cons_append, List.cons_lt_cons_self, ih]

theorem cons_lt_of_lt {a b : Name} {p q : Path} (h : a < b) : a :: p < b :: q := List.Lex.rel h

end Backpak
