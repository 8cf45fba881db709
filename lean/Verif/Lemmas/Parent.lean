import Verif.Lemmas.Walk
import Verif.Lemmas.Source

/-!
# Trees of a parent snapshot
-/

namespace Backpak

open Spec

variable {Id : Type} [LinearOrder Id] {C : Codec Id} {PF : List Id → Bytes → Prop}

/-- The nodes of a tree stand for the entries of a directory, subtrees being in the forest. -/
abbrev HeldIn (PF : List Id → Bytes → Prop) (F : Forest Id) : Tree Id → Dir Bytes → Prop :=
  DirRel PF (fun id t => F.get? id = some t)

theorem made_file {F : Forest Id} {t : Tree Id} {d0 : Dir Bytes} (h : HeldIn PF F t d0) {n : Name}
    {cs : List Id} {m : Meta} (hn : BMap.get? t n = some ⟨.file cs, m⟩) :
    ∃ x0, fileAt d0 n = some (m, x0) ∧ PF cs x0 := by
  induction h with
  | nil => simp [BMap.get?] at hn
  | @file n' cs' md' t' x' d' hx _ ih =>
    unfold BMap.get? at hn
    unfold fileAt
    by_cases he : n = n'
    · rw [if_pos he.symm] at hn
      rw [if_pos he]
      cases hn
      exact ⟨x', rfl, hx⟩
    · rw [if_neg (fun e => he e.symm)] at hn
      rw [if_neg he]
      exact ih hn
  | @link n' tgt md' t' d' _ ih =>
    unfold BMap.get? at hn
    unfold fileAt
    by_cases he : n = n'
    · rw [if_pos he.symm] at hn; cases hn
    · rw [if_neg (fun e => he e.symm)] at hn
      rw [if_neg he]
      exact ih hn
  | @dir n' id md' t' u sub d' _ _ _ _ ih =>
    unfold BMap.get? at hn
    unfold fileAt
    by_cases he : n = n'
    · rw [if_pos he.symm] at hn; cases hn
    · rw [if_neg (fun e => he e.symm)] at hn
      rw [if_neg he]
      exact ih hn

theorem made_sub {F : Forest Id} {t : Tree Id} {d0 : Dir Bytes} (h : HeldIn PF F t d0) {n : Name}
    {id : Id} {m : Meta} (hn : BMap.get? t n = some ⟨.dir id, m⟩) :
    ∃ u, F.get? id = some u ∧ HeldIn PF F u (subAt d0 n) := by
  induction h with
  | nil => simp [BMap.get?] at hn
  | @file n' cs' md' t' x' d' hx _ ih =>
    unfold BMap.get? at hn
    unfold subAt
    by_cases he : n = n'
    · rw [if_pos he.symm] at hn; cases hn
    · rw [if_neg (fun e => he e.symm)] at hn
      rw [if_neg he]
      exact ih hn
  | @link n' tgt md' t' d' _ ih =>
    unfold BMap.get? at hn
    unfold subAt
    by_cases he : n = n'
    · rw [if_pos he.symm] at hn; cases hn
    · rw [if_neg (fun e => he e.symm)] at hn
      rw [if_neg he]
      exact ih hn
  | @dir n' id' md' t' u sub d' hu hs _ _ ih =>
    unfold BMap.get? at hn
    unfold subAt
    by_cases he : n = n'
    · rw [if_pos he.symm] at hn
      rw [if_pos he]
      cases hn
      exact ⟨u, hu, hs⟩
    · rw [if_neg (fun e => he e.symm)] at hn
      rw [if_neg he]
      exact ih hn

theorem reuse_of_faithful {F : Forest Id} (d : Dir Bytes) : ∀ (pt : Option (Tree Id)) (d0 : Dir Bytes),
    (∀ t, pt = some t → HeldIn PF F t d0) → Faithful d0 d → Reuse PF F pt d := by
  induction d with
  | nil => intro _ _ _ _; trivial
  | leaf n md l r ih =>
    intro pt d0 hm hf
    refine ⟨?_, ih pt d0 hm hf.2⟩
    intro x cs m hl hp hun
    cases pt with
    | none => simp [prevNode] at hp
    | some t =>
      obtain ⟨x0, h0, he⟩ := made_file (hm t rfl) (by simpa [prevNode] using hp)
      rw [hf.1 x m x0 hl h0 hun]
      exact he
  | dir n md s r ihs ih =>
    intro pt d0 hm hf
    refine ⟨ihs _ (subAt d0 n) ?_ hf.1, ih pt d0 hm hf.2⟩
    intro u hu
    unfold prevSub at hu
    split at hu
    · rename_i id m hp
      cases pt with
      | none => simp [prevNode] at hp
      | some t =>
        obtain ⟨u', h1, h2⟩ := made_sub (hm t rfl) (by simpa [prevNode] using hp)
        rw [h1] at hu
        cases hu
        exact h2
    · cases hu

theorem reaches_sub {T : Id → Tree Id → Prop} {root id sub : Id} {t : Tree Id} (h : Reaches T root id)
    (ht : T id t) (hs : Sub t sub) : Reaches T root sub := by
  induction h with
  | refl => obtain ⟨n, md, hm⟩ := hs; exact .step ht hm .refl
  | step h1 h2 _ ih => exact .step h1 h2 (ih ht)

theorem rel_in_forest {R : Repo Id} {F : Forest Id} {root : Id}
    (hF : ∀ id t, Reaches (TreeAt C R) root id → TreeAt C R id t → F.get? id = some t) {t : Tree Id}
    {d : Dir Bytes} (h : DirRel PF (TreeAt C R) t d)
    (hsub : ∀ x, Sub t x → Reaches (TreeAt C R) root x) : HeldIn PF F t d := by
  have tail : ∀ {e : Name × Node Id} {t : Tree Id}, (∀ x, Sub (e :: t) x → Reaches (TreeAt C R) root x) →
      ∀ x, Sub t x → Reaches (TreeAt C R) root x := by
    rintro e t h x ⟨n, md, hm⟩
    exact h x ⟨n, md, List.mem_cons_of_mem _ hm⟩
  induction h with
  | nil => exact .nil
  | file h1 _ ih => exact .file h1 (ih (tail hsub))
  | link _ ih => exact .link (ih (tail hsub))
  | @dir n id md t t' sub d h0 _ _ ih1 ih2 =>
    have hr := hsub id ⟨n, md, by simp⟩
    exact .dir (hF id t' hr h0) (ih1 (fun x hx => reaches_sub hr h0 hx)) (ih2 (tail hsub))

end Backpak
