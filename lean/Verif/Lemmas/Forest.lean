import Verif.Spec.Repo
import Verif.Lemmas.Pack
import Verif.Props.C17
import Verif.Props.C18
import Mathlib.Data.List.Nodup
import Mathlib.Data.List.NodupEquivFin
import Mathlib.Data.List.Perm.Subperm

/-!
# Trees with finite unfoldings
-/

namespace Backpak

open Spec

variable {Id : Type}

/-- `s` is a subdirectory of `t`. -/
def Sub (t : Tree Id) (s : Id) : Prop := ∃ n md, (n, (⟨.dir s, md⟩ : Node Id)) ∈ t

/-- The tree can be unfolded completely. -/
inductive Grounded (T : Id → Tree Id → Prop) : Id → Prop
  | mk {id t} : T id t → (∀ s, Sub t s → Grounded T s) → Grounded T id

/-- It can be unfolded in at most `n` levels. -/
def Tall (T : Id → Tree Id → Prop) : Nat → Id → Prop
  | 0, _ => False
  | n + 1, id => ∃ t, T id t ∧ ∀ s, Sub t s → Tall T n s

variable {T : Id → Tree Id → Prop}

theorem Tall.mono {n m : Nat} {id : Id} (h : Tall T n id) (hm : n ≤ m) : Tall T m id := by
  induction n generalizing m id with
  | zero => exact h.elim
  | succ n ih =>
    obtain ⟨m, rfl⟩ : ∃ k, m = k + 1 := ⟨m - 1, by omega⟩
    obtain ⟨t, ht, hs⟩ := h
    exact ⟨t, ht, fun s h => ih (hs s h) (by omega)⟩

theorem Tall.grounded {n : Nat} {id : Id} (h : Tall T n id) : Grounded T id := by
  induction n generalizing id with
  | zero => exact h.elim
  | succ n ih =>
    obtain ⟨t, ht, hs⟩ := h
    exact .mk ht (fun s h => ih (hs s h))

theorem Grounded.mono {T' : Id → Tree Id → Prop} {id : Id} (h : Grounded T id)
    (hm : ∀ id t, T id t → T' id t) : Grounded T' id := by
  induction h with
  | mk ht _ ih => exact .mk (hm _ _ ht) ih

/-- `a` reaches `b` in at least one step. -/
def Below (T : Id → Tree Id → Prop) (a b : Id) : Prop :=
  ∃ t s, T a t ∧ Sub t s ∧ Reaches T s b

theorem _root_.Backpak.Spec.Reaches.trans {a b c : Id} (h : Reaches T a b) (h' : Reaches T b c) : Reaches T a c := by
  induction h with
  | refl => exact h'
  | step h1 h2 _ ih => exact .step h1 h2 (ih h')

theorem Below.sub {a b s : Id} {t : Tree Id} (h : Below T a b) (ht : T b t) (hs : Sub t s) :
    Below T a s := by
  obtain ⟨t', s', h1, h2, h3⟩ := h
  obtain ⟨n, md, hm⟩ := hs
  exact ⟨t', s', h1, h2, h3.trans (.step ht hm .refl)⟩

/-- An unfoldable tree is not below itself, when IDs stand for one tree each. -/
theorem Grounded.acyclic (hT : ∀ id t t', T id t → T id t' → t = t') {id : Id}
    (h : Grounded T id) : ¬ Below T id id := by
  induction h with
  | @mk id t ht hs ih =>
    rintro ⟨t', s, h1, h2, h3⟩
    rw [hT _ _ _ h1 ht] at h2
    refine ih s h2 ?_
    cases h3 with
    | refl => exact ⟨t, id, ht, h2, .refl⟩
    | @step _ t2 n s2 md _ h4 h5 h6 =>
      exact ⟨t2, s2, h4, ⟨n, md, h5⟩, h6.trans (.step ht h2.choose_spec.choose_spec .refl)⟩

theorem Grounded.reach (hT : ∀ id t t', T id t → T id t' → t = t') {id id' : Id}
    (h : Grounded T id) (hr : Reaches T id id') : Grounded T id' := by
  induction hr with
  | refl => exact h
  | step h1 h2 _ ih =>
    cases h with
    | mk ht hs =>
      rw [hT _ _ _ h1 ht] at h2
      exact ih (hs _ ⟨_, _, h2⟩)

/-- The depth of an unfolding is at most the number of IDs there are. -/
theorem Grounded.tall (hT : ∀ id t t', T id t → T id t' → t = t') (keys : List Id)
    (hk : ∀ id t, T id t → id ∈ keys) {id : Id} (h : Grounded T id) (stack : List Id)
    (hn : stack.Nodup) (hs : ∀ a ∈ stack, a ∈ keys ∧ Below T a id) :
    Tall T (keys.length - stack.length) id := by
  induction h generalizing stack with
  | @mk id t ht hsub ih =>
    have hno : id ∉ stack := fun hm =>
      (Grounded.mk ht hsub).acyclic hT (hs id hm).2
    have hlen : (id :: stack).length ≤ keys.length :=
      (List.subperm_of_subset (List.nodup_cons.mpr ⟨hno, hn⟩) (by
        intro a ha
        rcases List.mem_cons.mp ha with rfl | ha
        · exact hk _ _ ht
        · exact (hs a ha).1)).length_le
    simp only [List.length_cons] at hlen
    obtain ⟨k, hk'⟩ : ∃ k, keys.length - stack.length = k + 1 := ⟨_, (Nat.succ_pred (by omega)).symm⟩
    rw [hk']
    refine ⟨t, ht, fun s h => ?_⟩
    have := ih s h (id :: stack) (List.nodup_cons.mpr ⟨hno, hn⟩) (by
      intro a ha
      rcases List.mem_cons.mp ha with rfl | ha
      · exact ⟨hk _ _ ht, t, s, ht, h, .refl⟩
      · exact ⟨(hs a ha).1, (hs a ha).2.sub ht h⟩)
    have hk2 : keys.length - (id :: stack).length = k := by simp only [List.length_cons]; omega
    rwa [hk2] at this

section
variable [LinearOrder Id]

/-- What a forest says IDs stand for. -/
def InForest (f : Forest Id) (id : Id) (t : Tree Id) : Prop := f.get? id = some t

theorem InForest.one {f : Forest Id} {id : Id} {t t' : Tree Id} (h : InForest f id t)
    (h' : InForest f id t') : t = t' := by
  unfold InForest at h h'; rw [h] at h'; exact Option.some.inj h'

theorem forest_tall {f : Forest Id} {id : Id} (h : Grounded (InForest f) id) :
    Tall (InForest f) f.length id := by
  have := Grounded.tall (T := InForest f) (fun _ _ _ => InForest.one) (BMap.keys f)
    (fun _ _ h => BMap.mem_keys_of_mem (BMap.mem_of_get? h)) h [] (by simp) (by simp)
  simpa [BMap.keys] using this

end
end Backpak
