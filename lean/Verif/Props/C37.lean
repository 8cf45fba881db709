import Verif.Props.C36
import Verif.Lemmas.Snapshots

/-!
# C37: a list of snapshot names gives the named snapshots in time order, each once

When the named snapshots' times differ. The other case is `ties_keep_repeats`.
-/

namespace Backpak.C37

/-- Different snapshots were taken at different times. -/
def TimesDiffer (l : List (Snap ObjectId)) : Prop :=
  ∀ s ∈ l, ∀ s' ∈ l, s.1.time = s'.1.time → s = s'

theorem findAll_mem (l : List (Snap ObjectId)) :
    ∀ (args : List Bytes) (out : List (Snap ObjectId)), findAll l args = .ok out →
      ∀ s, s ∈ out ↔ ∃ a ∈ args, findSnap l a = .ok s := by
  intro args
  induction args with
  | nil => intro out h s; cases h; simp
  | cons a args ih =>
    intro out h s
    simp only [findAll] at h
    split at h
    · cases h
    · rename_i s0 h0
      split at h
      · cases h
      · rename_i l0 hl0
        cases h
        have := ih l0 hl0 s
        simp only [List.mem_cons, this, exists_eq_or_imp, h0, Except.ok.injEq]
        constructor
        · rintro (rfl | h)
          · exact .inl rfl
          · exact .inr h
        · rintro (rfl | h)
          · exact .inl rfl
          · exact .inr h

theorem dedupAfter_sublist (l : List (Snap ObjectId)) :
    ∀ p, (dedupAfter p l).Sublist l := by
  induction l with
  | nil => intro p; exact .slnil
  | cons s l ih =>
    intro p
    simp only [dedupAfter]
    split
    · exact (ih p).cons _
    · exact (ih _).cons_cons _

theorem dedupAfter_covers (l : List (Snap ObjectId)) :
    ∀ p, ∀ s ∈ l, s.2 = p ∨ ∃ s' ∈ dedupAfter p l, s'.2 = s.2 := by
  induction l with
  | nil => intro p s hs; cases hs
  | cons a l ih =>
    intro p s hs
    simp only [dedupAfter]
    rcases List.mem_cons.mp hs with rfl | hs
    · split
      · exact .inl (by assumption)
      · exact .inr ⟨s, by simp, rfl⟩
    · split
      · exact ih p s hs
      · rcases ih a.2 s hs with h | ⟨s', h1, h2⟩
        · exact .inr ⟨a, by simp, h.symm⟩
        · exact .inr ⟨s', by simp [h1], h2⟩

/-- In a list sorted by time where times determine the snapshot, repeats are adjacent, so that
removing adjacent repeats removes them all. -/
theorem dedupAfter_nodup (l : List (Snap ObjectId)) :
    ∀ p : Snap ObjectId, TimesDiffer (p :: l) → (p :: l).Pairwise noLater →
      p ∉ dedupAfter p.2 l ∧ (dedupAfter p.2 l).Nodup := by
  induction l with
  | nil => intro p _ _; simp [dedupAfter]
  | cons a l ih =>
    intro p hd hs
    simp only [dedupAfter]
    have hs' := hs
    rw [List.pairwise_cons] at hs'
    split
    · exact ih p (fun s h s' h' => hd s (by simp only [List.mem_cons] at h ⊢; tauto) s'
          (by simp only [List.mem_cons] at h' ⊢; tauto))
        (List.pairwise_cons.mpr ⟨fun b hb => hs'.1 b (by simp [hb]), (List.pairwise_cons.mp hs'.2).2⟩)
    · rename_i hne
      obtain ⟨h1, h2⟩ := ih a (fun s h s' h' => hd s (by simp only [List.mem_cons] at h ⊢; tauto) s'
          (by simp only [List.mem_cons] at h' ⊢; tauto)) hs'.2
      refine ⟨?_, List.nodup_cons.mpr ⟨h1, h2⟩⟩
      intro hp
      rcases List.mem_cons.mp hp with rfl | hp
      · exact hne rfl
      · have hp' := (dedupAfter_sublist l a.2).subset hp
        have e1 : a.1.time ≤ p.1.time := (List.pairwise_cons.mp hs'.2).1 p hp'
        have e2 : p.1.time ≤ a.1.time := hs'.1 a (by simp)
        exact hne (by rw [hd p (by simp) a (by simp) (le_antisymm e2 e1)])

theorem dedup_sublist (l : List (Snap ObjectId)) : (dedupSnaps l).Sublist l := by
  cases l with
  | nil => exact .slnil
  | cons s l => exact (dedupAfter_sublist l _).cons_cons _

/-- The names resolve to the named snapshots, in time order, each once. -/
theorem args_list (l : List (Snap ObjectId)) (hd : C36.Distinct l) (ht : TimesDiffer l)
    (args : List Bytes) (out : List (Snap ObjectId)) (h : fromArgsList l args = .ok out) :
    (∀ s, s ∈ out ↔ ∃ a ∈ args, findSnap l a = .ok s) ∧
    out.Nodup ∧ out.Pairwise (fun a b => a.1.time < b.1.time) := by
  unfold fromArgsList at h
  cases hf : findAll l args with
  | error e => rw [hf] at h; cases h
  | ok found =>
    rw [hf] at h
    cases h
    have hmem := findAll_mem l args found hf
    have hin : ∀ s ∈ sortSnaps found, s ∈ l := by
      intro s hs
      obtain ⟨a, _, ha⟩ := (hmem s).mp ((sort_perm found).mem_iff.mp hs)
      exact (C36.never_wrong l a s ha).1
    have htd : TimesDiffer (sortSnaps found) := fun s h1 s' h2 => ht s (hin s h1) s' (hin s' h2)
    have hsub := dedup_sublist (sortSnaps found)
    have hsort := (sort_sorted found).sublist hsub
    have hnd : (dedupSnaps (sortSnaps found)).Nodup := by
      have hs := sort_sorted found
      revert htd hs
      cases sortSnaps found with
      | nil => intro _ _; exact List.nodup_nil
      | cons a r =>
        intro htd hs
        exact List.nodup_cons.mpr (dedupAfter_nodup r a htd hs)
    refine ⟨?_, hnd, ?_⟩
    · intro s
      rw [← hmem s, ← (sort_perm found).mem_iff]
      refine ⟨fun hs => hsub.subset hs, fun hs => ?_⟩
      have : ∃ s' ∈ dedupSnaps (sortSnaps found), s'.2 = s.2 := by
        revert hs
        cases sortSnaps found with
        | nil => intro hs; cases hs
        | cons a r =>
          intro hs
          rcases List.mem_cons.mp hs with rfl | hs
          · exact ⟨s, by simp [dedupSnaps], rfl⟩
          · rcases dedupAfter_covers r a.2 s hs with h | ⟨s', h1, h2⟩
            · exact ⟨a, by simp [dedupSnaps], h.symm⟩
            · exact ⟨s', by simp [dedupSnaps, h1], h2⟩
      obtain ⟨s', h1, h2⟩ := this
      rwa [← C36.distinct_one hd (hin s' (hsub.subset h1)) (hin s hs) h2]
    · refine (hsort.and hnd).imp_of_mem ?_
      intro a b ha hb hab
      refine lt_of_le_of_ne hab.1 (fun he => hab.2 ?_)
      exact htd a (hsub.subset ha) b (hsub.subset hb) he

theorem findAll_ok (l : List (Snap ObjectId)) : ∀ (args : List Bytes),
    (∃ out, findAll l args = .ok out) ↔ ∀ a ∈ args, ∃ s, findSnap l a = .ok s := by
  intro args
  induction args with
  | nil => simp [findAll]
  | cons a args ih =>
    simp only [findAll, List.forall_mem_cons, ← ih]
    cases findSnap l a with
    | error e => simp
    | ok s =>
      cases findAll l args with
      | error e => simp
      | ok out => simp

/-- It succeeds just when each name resolves. -/
theorem succeeds_iff (l : List (Snap ObjectId)) (args : List Bytes) :
    (∃ out, fromArgsList l args = .ok out) ↔ ∀ a ∈ args, ∃ s, findSnap l a = .ok s := by
  rw [← findAll_ok]
  unfold fromArgsList
  cases findAll l args with
  | error e => simp [Except.map]
  | ok out => simp [Except.map]

/-- A snapshot for the examples. -/
def snapAt (t : Int) (b : UInt8) : Snap ObjectId :=
  ({ time := t, tz := [], author := [], tags := [], paths := [],
     tree := ⟨List.replicate 28 0, by decide⟩ }, ⟨b :: List.replicate 27 0, by simp⟩)

/-- With equal times a snapshot named twice can come out twice. -/
theorem ties_keep_repeats : ∃ (l : List (Snap ObjectId)) (args : List Bytes) (out : List (Snap ObjectId)),
    C36.Distinct l ∧ fromArgsList l args = .ok out ∧ ¬ out.Nodup := by
  refine ⟨[snapAt 5 1, snapAt 5 2], [ascii "LAST", ascii "LAST~", ascii "LAST"],
    [snapAt 5 2, snapAt 5 1, snapAt 5 2], by unfold C36.Distinct; decide +kernel,
    by decide +kernel, by decide +kernel⟩

-- Three names of two snapshots, out of order.
example : TimesDiffer [snapAt 5 1, snapAt 6 2] ∧
    fromArgsList [snapAt 5 1, snapAt 6 2] [ascii "LAST", ascii "LAST~1", ascii "HEAD"] =
      .ok [snapAt 5 1, snapAt 6 2] := by
  refine ⟨?_, by decide +kernel⟩
  unfold TimesDiffer
  decide +kernel

end Backpak.C37
