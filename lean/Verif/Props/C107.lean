import Verif.Model.ForgetTold
import Verif.Props.C29
import Verif.Lemmas.DemoPrune

/-!
# C107 - Forget removes what it says, and a dry run says what forget will remove

The full claim is: the snapshots `forget` says it removes, the same ones with `--dry-run` and without, are those that
are then gone; and it succeeds exactly if the dry run does, unless the storage fails.

Missing: if two arguments name one snapshot the dry run succeeds, but the command removes the snapshot and then fails
to remove it again (`named_twice`).
-/

namespace Backpak.C107

open Spec

variable {Id : Type} [LinearOrder Id]

/-- One removal after another. -/
def removals (able : Id → Bool) (dry : Bool) : List Id → Repo Id × Bool → Repo Id × Bool
  | [], st => st
  | i :: l, (R, ok) => removals able dry l ((forgetOne able dry i R).1, ok && (forgetOne able dry i R).2)

theorem dups_eq (able : Id → Bool) (dry : Bool) (snaps : List (Snap Id)) : ∀ (o : Option Id) (st : Repo Id × Bool),
    forgetDupsLoop able dry o snaps st = removals able dry (dupsTold o snaps) st := by
  induction snaps with
  | nil => intro o st; cases o <;> rfl
  | cons s l ih =>
    rintro o ⟨R, ok⟩
    cases o with
    | none => rw [forgetDupsLoop, dupsTold]; exact ih _ _
    | some t =>
      rw [forgetDupsLoop, dupsTold]
      split
      · exact ih _ _
      · rw [removals]
        exact ih _ _

/-- Every argument names a snapshot. -/
def AllFound (snaps : List (Snap ObjectId)) (args : List Bytes) : Prop :=
  args = [ascii "DUPLICATES"] ∨ ∀ a ∈ args, ∃ s, findSnap snaps a = .ok s

theorem removals_repo (able : Id → Bool) (dry : Bool) (l : List Id) : ∀ (R : Repo Id) (ok ok' : Bool),
    (removals able dry l (R, ok)).1 = (removals able dry l (R, ok')).1 ∧
    ((removals able dry l (R, ok)).2 = true ↔ ok = true ∧ (removals able dry l (R, true)).2 = true) := by
  induction l with
  | nil => intro R ok ok'; simp [removals]
  | cons i l ih =>
    intro R ok ok'
    simp only [removals]
    refine ⟨(ih _ _ _).1, ?_⟩
    rw [(ih _ (ok && (forgetOne able dry i R).2) true).2, (ih _ (true && (forgetOne able dry i R).2) true).2]
    simp [and_assoc]

theorem list_eq (able : ObjectId → Bool) (dry : Bool) (snaps : List (Snap ObjectId)) (args : List Bytes) :
    ∀ (R : Repo ObjectId) (ok : Bool),
      (forgetList able dry snaps args (R, ok)).1 = (removals able dry (listTold snaps args) (R, ok)).1 ∧
      ((forgetList able dry snaps args (R, ok)).2 = true ↔
        (removals able dry (listTold snaps args) (R, ok)).2 = true ∧ ∀ a ∈ args, ∃ s, findSnap snaps a = .ok s) := by
  induction args with
  | nil =>
    intro R ok
    rw [forgetList, listTold, removals]
    simp
  | cons a args ih =>
    intro R ok
    rw [forgetList, listTold]
    cases h : findSnap snaps a with
    | error e =>
      obtain ⟨h1, h2⟩ := ih R false
      refine ⟨h1.trans (removals_repo _ _ _ _ _ _).1, ?_⟩
      simp only
      rw [h2, (removals_repo able dry _ R false false).2]
      simp [h]
    | ok s =>
      obtain ⟨h1, h2⟩ := ih (forgetOne able dry s.2 R).1 (ok && (forgetOne able dry s.2 R).2)
      refine ⟨h1, ?_⟩
      simp only
      rw [h2, removals]
      have : (∀ b ∈ a :: args, ∃ s, findSnap snaps b = .ok s) ↔ ∀ b ∈ args, ∃ s, findSnap snaps b = .ok s :=
        ⟨fun h' b hb => h' b (List.mem_cons_of_mem _ hb), fun h' => List.forall_mem_cons.mpr ⟨⟨s, h⟩, h'⟩⟩
      rw [this]

omit [LinearOrder Id] in
theorem mem_keys {m : BMap Id (Snapshot Id)} {i : Id} : i ∈ BMap.keys m ↔ ∃ s, (i, s) ∈ m :=
  ⟨fun h => by obtain ⟨⟨j, s⟩, h1, rfl⟩ := List.mem_map.mp h; exact ⟨s, h1⟩, fun ⟨_, h⟩ => BMap.mem_keys_of_mem h⟩

theorem one_ok (able : Id → Bool) (i : Id) (R : Repo Id) :
    (forgetOne able false i R).2 = true ↔ i ∈ BMap.keys R.snapshots ∧ able i = true := by
  unfold forgetOne
  rw [BMap.mem_keys_iff, ← Option.isSome_iff_exists]
  by_cases h : ((R.snapshots.get? i).isSome && able i) = true
  · simp only [h, if_true, Bool.false_eq_true, if_false, true_iff]
    simpa using h
  · simp only [h, Bool.false_eq_true, if_false, false_iff]
    simpa using h

theorem one_snaps (able : Id → Bool) (i j : Id) (s : Snapshot Id) (R : Repo Id) :
    (j, s) ∈ (forgetOne able false i R).1.snapshots ↔ (j, s) ∈ R.snapshots ∧ ¬ (j = i ∧ able j = true) := by
  rw [(C29.removed_one able false i R).snaps j s, one_ok]
  constructor
  · rintro ⟨h1, h2⟩
    refine ⟨h1, ?_⟩
    rintro ⟨rfl, h3⟩
    exact h2 ⟨rfl, rfl, BMap.mem_keys_of_mem h1, h3⟩
  · rintro ⟨h1, h2⟩
    refine ⟨h1, ?_⟩
    rintro ⟨rfl, _, _, h3⟩
    exact h2 ⟨rfl, h3⟩

theorem removals_snaps (able : Id → Bool) (l : List Id) : ∀ (R : Repo Id) (ok : Bool) (j : Id) (s : Snapshot Id),
    (j, s) ∈ (removals able false l (R, ok)).1.snapshots ↔ (j, s) ∈ R.snapshots ∧ ¬ (j ∈ l ∧ able j = true) := by
  induction l with
  | nil => intro R ok j s; simp [removals]
  | cons i l ih =>
    intro R ok j s
    rw [removals, ih, one_snaps, List.mem_cons]
    tauto

theorem removals_ok (able : Id → Bool) (l : List Id) : ∀ R : Repo Id,
    (removals able false l (R, true)).2 = true ↔ l.Nodup ∧ ∀ i ∈ l, i ∈ BMap.keys R.snapshots ∧ able i = true := by
  induction l with
  | nil => intro R; simp [removals]
  | cons i l ih =>
    intro R
    rw [removals, (removals_repo _ _ _ _ _ true).2, ih, Bool.true_and, one_ok, List.nodup_cons]
    have hk : ∀ j, j ∈ BMap.keys (forgetOne able false i R).1.snapshots ↔
        j ∈ BMap.keys R.snapshots ∧ ¬ (j = i ∧ able j = true) := by
      intro j
      simp only [mem_keys, one_snaps]
      constructor
      · rintro ⟨s, h1, h2⟩; exact ⟨⟨s, h1⟩, h2⟩
      · rintro ⟨⟨s, h1⟩, h2⟩; exact ⟨s, h1, h2⟩
    constructor
    · rintro ⟨⟨h1, h2⟩, h3, h4⟩
      refine ⟨⟨fun h5 => ((hk i).mp (h4 i h5).1).2 ⟨rfl, h2⟩, h3⟩, ?_⟩
      intro j hj
      rcases List.mem_cons.mp hj with rfl | hj
      · exact ⟨h1, h2⟩
      · exact ⟨((hk j).mp (h4 j hj).1).1, (h4 j hj).2⟩
    · rintro ⟨⟨h1, h2⟩, h3⟩
      refine ⟨h3 i List.mem_cons_self, h2, fun j hj => ?_⟩
      obtain ⟨h4, h5⟩ := h3 j (List.mem_cons_of_mem _ hj)
      refine ⟨(hk j).mpr ⟨h4, ?_⟩, h5⟩
      rintro ⟨rfl, _⟩
      exact h1 hj

theorem removals_dry (able : Id → Bool) (l : List Id) : ∀ (R : Repo Id) (ok : Bool), removals able true l (R, ok) = (R, ok) := by
  induction l with
  | nil => intro R ok; rfl
  | cons i l ih =>
    intro R ok
    rw [removals]
    simp [forgetOne, ih]

theorem forget_eq (able : ObjectId → Bool) (dry : Bool) (snaps : List (Snap ObjectId)) (args : List Bytes) (R : Repo ObjectId) :
    (forget able dry snaps args R).1 = (removals able dry (forgetTold snaps args) (R, true)).1 ∧
    ((forget able dry snaps args R).2 = true ↔
      (removals able dry (forgetTold snaps args) (R, true)).2 = true ∧ AllFound snaps args) := by
  unfold forget forgetTold AllFound
  split
  · rename_i h
    unfold forgetDups
    rw [dups_eq]
    simp [h]
  · rename_i h
    simp only [h, false_or]
    exact list_eq able dry snaps args R true

/-! ## The properties -/

/-- What is gone afterwards is what was said, as far as the storage was able to remove it. -/
theorem removes_told (able : ObjectId → Bool) (snaps : List (Snap ObjectId)) (args : List Bytes) (R : Repo ObjectId)
    (i : ObjectId) (s : Snapshot ObjectId) :
    (i, s) ∈ (forget able false snaps args R).1.snapshots ↔
      (i, s) ∈ R.snapshots ∧ ¬ (i ∈ forgetTold snaps args ∧ able i = true) := by
  rw [(forget_eq able false snaps args R).1]
  exact removals_snaps able _ R true i s

/-- A dry run succeeds exactly if every argument names a snapshot. -/
theorem dry_ok_iff (able : ObjectId → Bool) (snaps : List (Snap ObjectId)) (args : List Bytes) (R : Repo ObjectId) :
    (forget able true snaps args R).2 = true ↔ AllFound snaps args := by
  rw [(forget_eq able true snaps args R).2, removals_dry]
  simp

/-- The command succeeds exactly if, besides, it says no snapshot twice, and each is there and the storage removes
it. -/
theorem ok_iff (able : ObjectId → Bool) (snaps : List (Snap ObjectId)) (args : List Bytes) (R : Repo ObjectId) :
    (forget able false snaps args R).2 = true ↔ AllFound snaps args ∧ (forgetTold snaps args).Nodup ∧
      ∀ i ∈ forgetTold snaps args, i ∈ BMap.keys R.snapshots ∧ able i = true := by
  rw [(forget_eq able false snaps args R).2, removals_ok]
  tauto

theorem dups_sublist (l : List (Snap Id)) : ∀ o : Option Id, (dupsTold o l).Sublist (l.map Prod.snd) := by
  induction l with
  | nil => intro o; cases o <;> exact List.Sublist.slnil
  | cons a l ih =>
    intro o
    cases o with
    | none => exact (ih _).cons _
    | some t =>
      rw [dupsTold]
      split
      · exact (ih _).cons _
      · exact (ih _).cons_cons _

theorem found_loaded {snaps : List (Snap ObjectId)} {a : Bytes} {s : Snap ObjectId} (h : findSnap snaps a = .ok s) :
    s ∈ snaps := by
  unfold findSnap at h
  split at h
  · split at h
    · rename_i h1
      cases h
      exact List.mem_of_find?_eq_some h1
    · cases h
  · split at h
    · cases h
    · split at h
      · rename_i h1
        cases h
        exact List.mem_reverse.mp (List.mem_of_getElem? h1)
      · cases h
    · split at h
      · cases h
      · split at h
        · cases h
        · rename_i h1
          cases h
          exact (List.mem_filter.mp (h1 ▸ List.mem_singleton_self _)).1
        · cases h

/-- Only snapshots that were loaded are said. -/
theorem told_loaded (snaps : List (Snap ObjectId)) (args : List Bytes) (i : ObjectId) (h : i ∈ forgetTold snaps args) :
    ∃ s, (s, i) ∈ snaps := by
  unfold forgetTold at h
  split at h
  · obtain ⟨⟨s, j⟩, h1, rfl⟩ := List.mem_map.mp ((dups_sublist snaps none).subset h)
    exact ⟨s, h1⟩
  · rename_i h0
    clear h0
    induction args with
    | nil => cases h
    | cons a args ih =>
      rw [listTold] at h
      split at h
      · exact ih h
      · rename_i s h1
        rcases List.mem_cons.mp h with rfl | h
        · exact ⟨s.1, found_loaded h1⟩
        · exact ih h

/-- If the storage works and no two arguments name one snapshot, the command succeeds exactly if the dry run does. -/
theorem same_outcome_partial (able able' : ObjectId → Bool) (snaps : List (Snap ObjectId)) (args : List Bytes)
    (R : Repo ObjectId) (hload : ∀ i s, (i, s) ∈ R.snapshots ↔ (s, i) ∈ snaps) (ha : ∀ i, able i = true)
    (hn : (forgetTold snaps args).Nodup) :
    (forget able false snaps args R).2 = (forget able' true snaps args R).2 := by
  rw [Bool.eq_iff_iff, ok_iff, dry_ok_iff]
  refine ⟨fun h => h.1, fun h => ⟨h, hn, fun i hi => ⟨?_, ha i⟩⟩⟩
  obtain ⟨s, hs⟩ := told_loaded snaps args i hi
  exact mem_keys.mpr ⟨s, (hload i s).mpr hs⟩

/-- Removing duplicates names no snapshot twice: it succeeds, if the storage works, as its dry run does. -/
theorem duplicates_succeed (able able' : ObjectId → Bool) (snaps : List (Snap ObjectId)) (R : Repo ObjectId)
    (hload : ∀ i s, (i, s) ∈ R.snapshots ↔ (s, i) ∈ snaps) (hnd : (snaps.map Prod.snd).Nodup) (ha : ∀ i, able i = true) :
    (forget able false snaps [ascii "DUPLICATES"] R).2 = true ∧
      (forget able' true snaps [ascii "DUPLICATES"] R).2 = true := by
  have hd := (dry_ok_iff able' snaps [ascii "DUPLICATES"] R).mpr (Or.inl rfl)
  refine ⟨?_, hd⟩
  rw [same_outcome_partial able able' snaps _ R hload ha, hd]
  rw [forgetTold, if_pos rfl]
  exact (dups_sublist snaps none).nodup hnd

/-- A snapshot named twice: the dry run succeeds, the command fails, having removed the snapshot all the same. -/
theorem named_twice :
    (forget (fun _ => true) true (Demo.snapsOf Demo.repoAB) [ascii "LAST", ascii "LAST"] Demo.repoAB).2 = true ∧
    forget (fun _ => true) false (Demo.snapsOf Demo.repoAB) [ascii "LAST", ascii "LAST"] Demo.repoAB =
      (Demo.repoA, false) := by
  decide +kernel

/-! ## Not vacuous -/

/-- One name: it is said, and gone. -/
example : forgetTold (Demo.snapsOf Demo.repoAB) [ascii "LAST"] = [((Demo.snapsOf Demo.repoAB).getLast (by decide +kernel)).2] ∧
    (forgetTold (Demo.snapsOf Demo.repoAB) [ascii "LAST"]).Nodup ∧
    forget (fun _ => true) false (Demo.snapsOf Demo.repoAB) [ascii "LAST"] Demo.repoAB = (Demo.repoA, true) ∧
    Demo.repoA ≠ Demo.repoAB := by
  decide +kernel

/-- A name of nothing: both fail. -/
example : (forget (fun _ => true) true (Demo.snapsOf Demo.repoAB) [ascii "nope"] Demo.repoAB).2 = false ∧
    (forget (fun _ => true) false (Demo.snapsOf Demo.repoAB) [ascii "nope"] Demo.repoAB).2 = false := by
  decide +kernel

/-- The demonstration's snapshots are loaded as they are. -/
example : (∀ p ∈ Demo.repoAB.snapshots, (p.2, p.1) ∈ Demo.snapsOf Demo.repoAB) ∧
    (∀ p ∈ Demo.snapsOf Demo.repoAB, (p.2, p.1) ∈ Demo.repoAB.snapshots) ∧
    ((Demo.snapsOf Demo.repoAB).map Prod.snd).Nodup := by
  decide +kernel

/-- Two of one tree among three: the later one is said. -/
example (a b c : Snapshot ObjectId) (i j k : ObjectId) (h : a.tree = b.tree) (h' : c.tree ≠ b.tree) :
    forgetTold [(a, i), (b, j), (c, k)] [ascii "DUPLICATES"] = [j] := by
  simp [forgetTold, dupsTold, h, h']

end Backpak.C107
