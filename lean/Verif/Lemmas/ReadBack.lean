import Verif.Lemmas.Parent
import Verif.Props.C23
import Verif.Props.C33

/-!
# Reading what a repository holds
-/

namespace Backpak

open Spec

variable {Id : Type} [LinearOrder Id] {C : Codec Id} {R : Repo Id} {src : Source Id}

/-- Reading these chunks one after another, with any clock and heap and whatever the reader has
read before, gives these bytes. -/
def ReadsTo (C : Codec Id) (R : Repo Id) (src : Source Id) (cs : List Id) (x : Bytes) : Prop :=
  ∀ env, C33.EnvOk env → ∀ s, C33.Settled C R env s →
    ∃ parts s', readBlobs C.hash src env s cs = .ok (parts, s') ∧ parts.flatten = x ∧
      C33.Settled C R env s'

theorem file_reads (hS : Sound C R) (ho : Opens R src) {cs : List Id} {x : Bytes}
    (h : FileHolds C R cs x) : ReadsTo C R src cs x := by
  induction h with
  | nil => exact fun env _ s hs => ⟨[], s, rfl, rfl, hs⟩
  | @cons c x cs y hc _ ih =>
    intro env he s hs
    obtain ⟨s1, h1, h2⟩ := C33.read_ok he hS ho s hs c x hc
    obtain ⟨parts, s2, h3, h4, h5⟩ := ih env he s1 h2
    refine ⟨x :: parts, s2, ?_, by simp [h4], h5⟩
    simp only [readBlobs, h1, h3]

theorem dirRel_grounded {PF : List Id → Bytes → Prop} {PT : Id → Tree Id → Prop} {t : Tree Id}
    {d : Dir Bytes} (h : DirRel PF PT t d) : ∀ x, Sub t x → Grounded PT x := by
  induction h with
  | nil => rintro x ⟨n, md, hm⟩; cases hm
  | file _ _ ih =>
    rintro x ⟨n, md, hm⟩
    rcases List.mem_cons.mp hm with hm | hm
    · cases hm
    · exact ih x ⟨n, md, hm⟩
  | link _ ih =>
    rintro x ⟨n, md, hm⟩
    rcases List.mem_cons.mp hm with hm | hm
    · cases hm
    · exact ih x ⟨n, md, hm⟩
  | dir h0 _ _ ih1 ih2 =>
    rintro x ⟨n, md, hm⟩
    rcases List.mem_cons.mp hm with hm | hm
    · cases hm
      exact .mk h0 ih1
    · exact ih2 x ⟨n, md, hm⟩

theorem holds_grounded {root : Id} {d : Dir Bytes} (h : Holds C R root d) :
    Grounded (TreeAt C R) root := by
  obtain ⟨t, h1, h2⟩ := h
  exact .mk h1 (dirRel_grounded h2)

/-- The trees of what a repository holds can be loaded, and hold the same. -/
theorem holds_forest (hS : Sound C R) (ho : Opens R src) {root : Id} {d : Dir Bytes}
    (h : Holds C R root d) {cache : Forest Id} (hc : CacheOk C R cache) :
    ∃ F cache', forestFromRoot C src root cache = .ok (F, cache') ∧
      ∃ t, F.get? root = some t ∧ HeldIn (FileHolds C R) F t d := by
  have hone : ∀ id t t', TreeAt C R id t → TreeAt C R id t' → t = t' := fun _ _ _ => hS.treeAt_one
  have hg := holds_grounded h
  obtain ⟨⟨F, cache'⟩, hF⟩ := (C23.succeeds_iff hS ho root cache hc).mpr
    ⟨fun id hr => by cases hg.reach hone hr with | mk ht _ => exact ⟨_, ht⟩,
     fun id hr => (hg.reach hone hr).acyclic hone⟩
  have hex := C23.forest_exact hS ho root cache F cache' hc hF
  obtain ⟨t, h1, h2⟩ := h
  exact ⟨F, cache', hF, t, (hex _ _).mpr ⟨.refl, h1⟩,
    rel_in_forest (fun id t a b => (hex id t).mpr ⟨a, b⟩) h2 (fun x hx => reaches_sub .refl h1 hx)⟩

theorem fileHolds_one (hS : Sound C R) {cs : List Id} {x y : Bytes} (h : FileHolds C R cs x)
    (h' : FileHolds C R cs y) : x = y := by
  induction h generalizing y with
  | nil => cases h'; rfl
  | cons h1 _ ih =>
    cases h' with
    | cons h2 h3 =>
      have := hS.has_one h1 h2 rfl
      cases this
      rw [ih h3]

theorem dirHolds_one (hS : Sound C R) {t : Tree Id} {d d' : Dir Bytes} (h : DirHolds C R t d)
    (h' : DirHolds C R t d') : d = d' := by
  induction h generalizing d' with
  | nil => cases h'; rfl
  | file h1 _ ih =>
    cases h' with
    | file h2 h3 => rw [fileHolds_one hS h1 h2, ih h3]
  | link _ ih =>
    cases h' with
    | link h3 => rw [ih h3]
  | dir h0 _ _ ih1 ih2 =>
    cases h' with
    | dir g0 g1 g2 =>
      have := hS.treeAt_one h0 g0
      subst this
      rw [ih1 g1, ih2 g2]

/-- An ID stands for at most one file tree. -/
theorem holds_one (hS : Sound C R) {id : Id} {d d' : Dir Bytes} (h : Holds C R id d)
    (h' : Holds C R id d') : d = d' := by
  obtain ⟨t, h1, h2⟩ := h
  obtain ⟨t', h1', h2'⟩ := h'
  have := hS.treeAt_one h1 h1'
  subst this
  exact dirHolds_one hS h2 h2'

end Backpak
