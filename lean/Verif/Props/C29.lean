import Verif.Model.Forget
import Verif.Lemmas.Prune
import Verif.Spec.Toy

/-!
# C29 - Forget removes only what it is told to
-/

namespace Backpak.C29

open Spec

set_option linter.unusedSectionVars false

variable {Id : Type} [LinearOrder Id]

/-! ## Any sequence of removals -/

/-- Some snapshots, those in `gone`, have been removed, and nothing else has changed. -/
structure Removed (R R' : Repo Id) (gone : Id → Prop) : Prop where
  packs : R'.packs = R.packs
  indexes : R'.indexes = R.indexes
  snaps : ∀ i s, (i, s) ∈ R'.snapshots ↔ (i, s) ∈ R.snapshots ∧ ¬ gone i

theorem removed_one (able : Id → Bool) (dry : Bool) (id : Id) (R : Repo Id) :
    Removed R (forgetOne able dry id R).1
      (fun i => i = id ∧ dry = false ∧ (forgetOne able dry id R).2 = true) := by
  unfold forgetOne
  cases dry with
  | true => exact ⟨rfl, rfl, fun i s => by simp⟩
  | false =>
    simp only [Bool.false_eq_true, if_false, true_and]
    split
    · refine ⟨rfl, rfl, fun i s => ?_⟩
      simp only [and_true]
      rw [BMap.mem_erase_iff, and_comm]
    · exact ⟨rfl, rfl, fun i s => by simp⟩

theorem Removed.trans {R R' R'' : Repo Id} {g g' : Id → Prop} (h : Removed R R' g) (h' : Removed R' R'' g') :
    Removed R R'' (fun i => g i ∨ g' i) :=
  ⟨h'.packs.trans h.packs, h'.indexes.trans h.indexes, fun i s => by
    rw [h'.snaps, h.snaps]; tauto⟩

theorem Removed.congr {R R' : Repo Id} {g g' : Id → Prop} (h : Removed R R' g)
    (hg : ∀ i s, (i, s) ∈ R.snapshots → (g i ↔ g' i)) : Removed R R' g' :=
  ⟨h.packs, h.indexes, fun i s => by
    rw [h.snaps]
    constructor
    · rintro ⟨a, b⟩; exact ⟨a, fun c => b ((hg i s a).mpr c)⟩
    · rintro ⟨a, b⟩; exact ⟨a, fun c => b ((hg i s a).mp c)⟩⟩

theorem removed_refl (R : Repo Id) : Removed R R (fun _ => False) := ⟨rfl, rfl, fun _ _ => by simp⟩

/-! ## Named snapshots -/

/-- What removing named snapshots does, and what success means. -/
theorem list_spec (able : ObjectId → Bool) (dry : Bool) (snaps : List (Snap ObjectId)) :
    ∀ (args : List Bytes) (R : Repo ObjectId) (ok : Bool), ∃ gone : ObjectId → Prop,
      Removed R (forgetList able dry snaps args (R, ok)).1 gone ∧
      (∀ i, gone i → dry = false ∧ ∃ a ∈ args, ∃ s, findSnap snaps a = .ok (s, i)) ∧
      ((forgetList able dry snaps args (R, ok)).2 = true → ok = true ∧ ∀ a ∈ args, ∃ s i,
        findSnap snaps a = .ok (s, i) ∧ (dry = false → gone i)) := by
  intro args
  induction args with
  | nil => exact fun R ok => ⟨_, removed_refl R, by simp, by simp [forgetList]⟩
  | cons a args ih =>
    intro R ok
    unfold forgetList
    split
    · obtain ⟨g, h1, h2, h3⟩ := ih R false
      refine ⟨g, h1, fun i hi => ?_, fun h => ?_⟩
      · obtain ⟨h4, b, hb, h5⟩ := h2 i hi
        exact ⟨h4, b, List.mem_cons_of_mem _ hb, h5⟩
      · exact absurd (h3 h).1 (by simp)
    · rename_i s hs
      have hone := removed_one able dry s.2 R
      obtain ⟨g, h1, h2, h3⟩ := ih (forgetOne able dry s.2 R).1 (ok && (forgetOne able dry s.2 R).2)
      refine ⟨_, hone.trans h1, ?_, ?_⟩
      · rintro i (⟨rfl, hd, _⟩ | hi)
        · exact ⟨hd, a, List.mem_cons_self, s.1, hs⟩
        · obtain ⟨h4, b, hb, h5⟩ := h2 i hi
          exact ⟨h4, b, List.mem_cons_of_mem _ hb, h5⟩
      · intro h
        obtain ⟨h4, h5⟩ := h3 h
        rw [Bool.and_eq_true] at h4
        refine ⟨h4.1, fun b hb => ?_⟩
        rcases List.mem_cons.mp hb with rfl | hb
        · exact ⟨s.1, s.2, hs, fun hd => .inl ⟨rfl, hd, h4.2⟩⟩
        · obtain ⟨s', i, h6, h7⟩ := h5 b hb
          exact ⟨s', i, h6, fun hd => .inr (h7 hd)⟩

/-- Forget touches no pack or index, and removes no snapshot that is not named, whatever fails. -/
theorem only_named (able : ObjectId → Bool) (dry : Bool) (snaps : List (Snap ObjectId)) (args : List Bytes)
    (R : Repo ObjectId) (hargs : args ≠ [ascii "DUPLICATES"]) :
    (forget able dry snaps args R).1.packs = R.packs ∧
    (forget able dry snaps args R).1.indexes = R.indexes ∧
    (∀ i s, (i, s) ∈ (forget able dry snaps args R).1.snapshots → (i, s) ∈ R.snapshots) ∧
    ∀ i s, (i, s) ∈ R.snapshots → (¬ ∃ a ∈ args, ∃ s', findSnap snaps a = .ok (s', i)) →
      (i, s) ∈ (forget able dry snaps args R).1.snapshots := by
  unfold forget
  rw [if_neg hargs]
  obtain ⟨g, h1, h2, _⟩ := list_spec able dry snaps args R true
  exact ⟨h1.packs, h1.indexes, fun i s h => ((h1.snaps i s).mp h).1,
    fun i s h hn => (h1.snaps i s).mpr ⟨h, fun hg => hn (h2 i hg).2⟩⟩

/-- If it reports success, every argument named a snapshot and exactly those are gone. -/
theorem exactly_named (able : ObjectId → Bool) (snaps : List (Snap ObjectId)) (args : List Bytes)
    (R : Repo ObjectId) (hargs : args ≠ [ascii "DUPLICATES"])
    (hok : (forget able false snaps args R).2 = true) :
    (∀ a ∈ args, ∃ s i, findSnap snaps a = .ok (s, i)) ∧
    ∀ i s, (i, s) ∈ (forget able false snaps args R).1.snapshots ↔
      (i, s) ∈ R.snapshots ∧ ¬ ∃ a ∈ args, ∃ s', findSnap snaps a = .ok (s', i) := by
  unfold forget at hok ⊢
  rw [if_neg hargs] at hok ⊢
  obtain ⟨g, h1, h2, h3⟩ := list_spec able false snaps args R true
  obtain ⟨_, h4⟩ := h3 hok
  refine ⟨fun a ha => ?_, fun i s => ?_⟩
  · obtain ⟨s, i, h5, _⟩ := h4 a ha
    exact ⟨s, i, h5⟩
  · rw [h1.snaps]
    refine and_congr_right fun _ => not_congr ⟨fun hg => (h2 i hg).2, ?_⟩
    rintro ⟨a, ha, s', h5⟩
    obtain ⟨s'', i', h6, h7⟩ := h4 a ha
    rw [h5] at h6
    cases h6
    exact h7 rfl

/-- A dry run changes nothing. -/
theorem dry_nothing (able : ObjectId → Bool) (snaps : List (Snap ObjectId)) (args : List Bytes)
    (R : Repo ObjectId) : (forget able true snaps args R).1 = R := by
  have hl : ∀ (args : List Bytes) (ok : Bool), (forgetList able true snaps args (R, ok)).1 = R := by
    intro args
    induction args with
    | nil => exact fun _ => rfl
    | cons a args ih =>
      intro ok
      unfold forgetList
      split
      · exact ih _
      · exact ih _
  have hd : ∀ (snaps : List (Snap ObjectId)) (last : Option ObjectId) (ok : Bool),
      (forgetDupsLoop able true last snaps (R, ok)).1 = R := by
    intro snaps
    induction snaps with
    | nil => exact fun last _ => by unfold forgetDupsLoop; rfl
    | cons s l ih =>
      intro last ok
      cases last with
      | none => unfold forgetDupsLoop; exact ih _ _
      | some t =>
        unfold forgetDupsLoop
        split
        · exact ih _ _
        · exact ih _ _
  unfold forget
  split
  · exact hd _ _ _
  · exact hl _ _

/-! ## Duplicates -/

/-- Snapshot `i` has the same tree as the one before it. -/
def Repeats (snaps : List (Snap Id)) (i : Id) : Prop :=
  ∃ pre a b post, snaps = pre ++ a :: b :: post ∧ b.2 = i ∧ a.1.tree = b.1.tree

theorem repeats_cons {a b : Snap Id} {l : List (Snap Id)} {i : Id} :
    Repeats (a :: b :: l) i ↔ (b.2 = i ∧ a.1.tree = b.1.tree) ∨ Repeats (b :: l) i := by
  constructor
  · rintro ⟨pre, x, y, post, h, h1, h2⟩
    cases pre with
    | nil =>
      simp only [List.nil_append, List.cons.injEq] at h
      obtain ⟨rfl, rfl, _⟩ := h
      exact .inl ⟨h1, h2⟩
    | cons z pre =>
      simp only [List.cons_append, List.cons.injEq] at h
      exact .inr ⟨pre, x, y, post, h.2, h1, h2⟩
  · rintro (⟨h1, h2⟩ | ⟨pre, x, y, post, h, h1, h2⟩)
    · exact ⟨[], a, b, l, rfl, h1, h2⟩
    · exact ⟨a :: pre, x, y, post, by rw [h]; rfl, h1, h2⟩

theorem dups_spec (able : Id → Bool) (dry : Bool) : ∀ (l : List (Snap Id)) (a : Snap Id) (R : Repo Id) (ok : Bool),
    ∃ gone : Id → Prop, Removed R (forgetDupsLoop able dry (some a.1.tree) l (R, ok)).1 gone ∧
      (∀ i, gone i → dry = false ∧ Repeats (a :: l) i) ∧
      ((forgetDupsLoop able dry (some a.1.tree) l (R, ok)).2 = true → ok = true ∧
        (dry = false → ∀ i, Repeats (a :: l) i → gone i)) := by
  intro l
  induction l with
  | nil =>
    intro a R ok
    refine ⟨_, removed_refl R, by simp, ?_⟩
    intro h
    unfold forgetDupsLoop at h
    refine ⟨h, fun _ i hi => ?_⟩
    obtain ⟨pre, x, y, post, h, _⟩ := hi
    have := congrArg List.length h
    simp at this
    omega
  | cons s l ih =>
    intro a R ok
    unfold forgetDupsLoop
    split
    · rename_i hne
      obtain ⟨g, h1, h2, h3⟩ := ih s R ok
      refine ⟨g, h1, fun i hi => ⟨(h2 i hi).1, repeats_cons.mpr (.inr (h2 i hi).2)⟩, fun h => ?_⟩
      refine ⟨(h3 h).1, fun hd i hi => ?_⟩
      rcases repeats_cons.mp hi with ⟨_, h4⟩ | hi
      · exact absurd h4.symm hne
      · exact (h3 h).2 hd i hi
    · rename_i heq
      rw [not_not] at heq
      have hone := removed_one able dry s.2 R
      obtain ⟨g, h1, h2, h3⟩ := ih s (forgetOne able dry s.2 R).1 (ok && (forgetOne able dry s.2 R).2)
      rw [heq] at h1 h3
      refine ⟨_, hone.trans h1, ?_, ?_⟩
      · rintro i (⟨rfl, hd, _⟩ | hi)
        · exact ⟨hd, repeats_cons.mpr (.inl ⟨rfl, heq.symm⟩)⟩
        · exact ⟨(h2 i hi).1, repeats_cons.mpr (.inr (h2 i hi).2)⟩
      · intro h
        obtain ⟨h4, h5⟩ := h3 h
        rw [Bool.and_eq_true] at h4
        refine ⟨h4.1, fun hd i hi => ?_⟩
        rcases repeats_cons.mp hi with ⟨h6, _⟩ | hi
        · exact .inl ⟨h6.symm, hd, h4.2⟩
        · exact .inr (h5 hd i hi)

theorem dups_all (able : Id → Bool) (dry : Bool) (l : List (Snap Id)) (R : Repo Id) :
    ∃ gone : Id → Prop, Removed R (forgetDups able dry l R).1 gone ∧
      (∀ i, gone i → dry = false ∧ Repeats l i) ∧
      ((forgetDups able dry l R).2 = true → dry = false → ∀ i, Repeats l i → gone i) := by
  unfold forgetDups
  cases l with
  | nil =>
    refine ⟨_, removed_refl R, by simp, ?_⟩
    rintro _ _ i ⟨pre, x, y, post, h, _⟩
    simp at h
  | cons a l =>
    obtain ⟨g, h1, h2, h3⟩ := dups_spec able dry l a R true
    exact ⟨g, h1, h2, fun h => (h3 h).2⟩

/-- Forgetting duplicates touches no pack or index and removes only snapshots with the same tree
as the one before; when it reports success it has removed them all. -/
theorem only_repeats (able : ObjectId → Bool) (snaps : List (Snap ObjectId)) (R : Repo ObjectId) :
    (forget able false snaps [ascii "DUPLICATES"] R).1.packs = R.packs ∧
    (forget able false snaps [ascii "DUPLICATES"] R).1.indexes = R.indexes ∧
    (∀ i s, (i, s) ∈ (forget able false snaps [ascii "DUPLICATES"] R).1.snapshots → (i, s) ∈ R.snapshots) ∧
    (∀ i s, (i, s) ∈ R.snapshots → ¬ Repeats snaps i →
      (i, s) ∈ (forget able false snaps [ascii "DUPLICATES"] R).1.snapshots) ∧
    ((forget able false snaps [ascii "DUPLICATES"] R).2 = true → ∀ i s,
      (i, s) ∈ (forget able false snaps [ascii "DUPLICATES"] R).1.snapshots → ¬ Repeats snaps i) := by
  unfold forget
  rw [if_pos rfl]
  obtain ⟨g, h1, h2, h3⟩ := dups_all able false snaps R
  exact ⟨h1.packs, h1.indexes, fun i s h => ((h1.snaps i s).mp h).1,
    fun i s h hn => (h1.snaps i s).mpr ⟨h, fun hg => hn (h2 i hg).2⟩,
    fun hok i s h hr => ((h1.snaps i s).mp h).2 (h3 hok rfl i hr)⟩

/-- Every tree some snapshot had, some snapshot still has. -/
theorem trees_stay (able : ObjectId → Bool) (dry : Bool) (snaps : List (Snap ObjectId)) (R : Repo ObjectId)
    (hload : ∀ i s, (i, s) ∈ R.snapshots ↔ (s, i) ∈ snaps) (hnd : (snaps.map Prod.snd).Nodup)
    (i : ObjectId) (s : Snapshot ObjectId) (hs : (i, s) ∈ R.snapshots) :
    ∃ i' s', (i', s') ∈ (forget able dry snaps [ascii "DUPLICATES"] R).1.snapshots ∧ s'.tree = s.tree := by
  unfold forget
  rw [if_pos rfl]
  obtain ⟨g, h1, h2, _⟩ := dups_all able dry snaps R
  -- by strong induction on the position of the snapshot
  have key : ∀ n (pre : List (Snap ObjectId)) b post, pre.length = n → snaps = pre ++ b :: post →
      ∃ b' ∈ snaps, ¬ Repeats snaps b'.2 ∧ b'.1.tree = b.1.tree := by
    intro n
    induction n with
    | zero =>
      intro pre b post hl heq
      cases List.length_eq_zero_iff.mp hl
      refine ⟨b, by rw [heq]; simp, ?_, rfl⟩
      rintro ⟨pre', x, y, post', h', hy, _⟩
      rw [heq, List.nil_append] at h'
      rw [heq] at hnd
      cases pre' with
      | nil =>
        simp only [List.nil_append, List.cons.injEq] at h'
        obtain ⟨_, rfl⟩ := h'
        simp [hy] at hnd
      | cons z pre' =>
        simp only [List.cons_append, List.cons.injEq] at h'
        obtain ⟨_, rfl⟩ := h'
        simp [hy] at hnd
    | succ n ih =>
      intro pre b post hl heq
      obtain ⟨pre', a, rfl⟩ : ∃ pre' a, pre = pre' ++ [a] :=
        ⟨pre.dropLast, pre.getLast (by rintro rfl; simp at hl), (List.dropLast_append_getLast _).symm⟩
      have hl' : pre'.length = n := by simpa using hl
      rw [List.append_assoc, List.cons_append, List.nil_append] at heq
      by_cases ht : a.1.tree = b.1.tree
      · obtain ⟨b', h3, h4, h5⟩ := ih pre' a (b :: post) hl' heq
        exact ⟨b', h3, h4, h5.trans ht⟩
      · refine ⟨b, by rw [heq]; simp, ?_, rfl⟩
        rintro ⟨p, x, y, q, h', hy, hxy⟩
        -- the position of an ID is unique
        have hpos : (snaps.map Prod.snd) = (pre' ++ [a]).map Prod.snd ++ b.2 :: post.map Prod.snd := by
          rw [heq]; simp
        have hpos' : (snaps.map Prod.snd) = (p ++ [x]).map Prod.snd ++ b.2 :: q.map Prod.snd := by
          rw [h']; simp [hy]
        have hlen : (pre' ++ [a]).length = (p ++ [x]).length := by
          have e1 : (snaps.map Prod.snd).idxOf b.2 = (pre' ++ [a]).length := by
            rw [hpos] at hnd ⊢
            rw [List.idxOf_append_of_notMem]
            · simp
            · intro hm
              exact (List.disjoint_of_nodup_append hnd) hm List.mem_cons_self
          have e2 : (snaps.map Prod.snd).idxOf b.2 = (p ++ [x]).length := by
            rw [hpos'] at hnd ⊢
            rw [List.idxOf_append_of_notMem]
            · simp
            · intro hm
              exact (List.disjoint_of_nodup_append hnd) hm List.mem_cons_self
          rw [← e1, ← e2]
        have heq2 : (pre' ++ [a]) ++ (b :: post) = (p ++ [x]) ++ (y :: q) := by
          rw [List.append_assoc, List.append_assoc]
          simp only [List.cons_append, List.nil_append]
          rw [← heq, ← h']
        obtain ⟨e3, e4⟩ := List.append_inj heq2 hlen
        have e5 : a = x := by
          have := congrArg List.getLast? e3
          simpa using this
        have e6 : b = y := by
          have := congrArg List.head? e4
          simpa using this
        subst e5 e6
        exact ht hxy
  obtain ⟨pre, post, hsp⟩ := List.append_of_mem ((hload i s).mp hs)
  obtain ⟨b', h3, h4, h5⟩ := key _ pre (s, i) post rfl hsp
  exact ⟨b'.2, b'.1, (h1.snaps _ _).mpr ⟨(hload _ _).mpr h3, fun hg => h4 (h2 _ hg).2⟩, h5⟩

/-- A repository in good order stays so: forgetting leaves the other snapshots readable. -/
theorem stays_healthy {C : Codec ObjectId} {ids : Ids ObjectId} (able : ObjectId → Bool) (dry : Bool)
    (snaps : List (Snap ObjectId)) (args : List Bytes) (R : Repo ObjectId) (h : Healthy C ids R) :
    Healthy C ids (forget able dry snaps args R).1 := by
  have hone : ∀ (id : ObjectId) (R : Repo ObjectId), BMap.Sorted R.snapshots →
      BMap.Sorted (forgetOne able dry id R).1.snapshots := by
    intro id R hs
    unfold forgetOne
    split
    · exact hs
    · split
      · exact BMap.sorted_erase hs id
      · exact hs
  obtain ⟨g, hR, hsort⟩ : ∃ g, Removed R (forget able dry snaps args R).1 g ∧
      BMap.Sorted (forget able dry snaps args R).1.snapshots := by
    unfold forget
    split
    · obtain ⟨g, h1, _⟩ := dups_all able dry snaps R
      refine ⟨g, h1, ?_⟩
      have : ∀ (l : List (Snap ObjectId)) last (R : Repo ObjectId) ok, BMap.Sorted R.snapshots →
          BMap.Sorted (forgetDupsLoop able dry last l (R, ok)).1.snapshots := by
        intro l
        induction l with
        | nil => exact fun last R ok hs => by unfold forgetDupsLoop; exact hs
        | cons s l ih =>
          intro last R ok hs
          cases last with
          | none => unfold forgetDupsLoop; exact ih _ _ _ hs
          | some t =>
            unfold forgetDupsLoop
            split
            · exact ih _ _ _ hs
            · exact ih _ _ _ (hone _ _ hs)
      exact this _ _ _ _ h.snapshots_sorted
    · obtain ⟨g, h1, _⟩ := list_spec able dry snaps args R true
      refine ⟨g, h1, ?_⟩
      have : ∀ (args : List Bytes) (R : Repo ObjectId) ok, BMap.Sorted R.snapshots →
          BMap.Sorted (forgetList able dry snaps args (R, ok)).1.snapshots := by
        intro args
        induction args with
        | nil => exact fun R ok hs => hs
        | cons a args ih =>
          intro R ok hs
          unfold forgetList
          split
          · exact ih _ _ hs
          · exact ih _ _ (hone _ _ hs)
      exact this _ _ _ h.snapshots_sorted
  have hhas : ∀ b, Has C R b → Has C (forget able dry snaps args R).1 b := by
    rintro b ⟨h1, p, bs, h2, h3, h4⟩
    exact ⟨h1, p, bs, by rw [hR.indexes]; exact h2, by rw [hR.packs]; exact h3, h4⟩
  obtain ⟨p1, p2, p3⟩ := hR
  refine ⟨?_, ?_, hsort, ?_, ?_, ?_, ?_, ?_, ?_, ?_, ?_, ?_, ?_, ?_⟩
  · rw [p1]; exact h.packs_sorted
  · rw [p2]; exact h.indexes_sorted
  · rw [p1]; exact h.pack_names
  · rw [p2]; exact h.index_names
  · rw [p2]; exact h.index_packs
  · rw [p1, p2]; exact h.present
  · rw [p2]; exact h.distinct
  · rw [p2]; exact h.once
  · rw [p2]; exact h.one_kind
  · rw [p1, p2]; exact h.hashes
  · rw [p1, p2]; exact h.trees
  · rw [p1, p2]; exact h.full
  · intro i s hs
    obtain ⟨d, hd⟩ := h.readable i s ((p3 i s).mp hs).1
    exact ⟨d, has_mono_holds hhas hd⟩

/-! ## Examples -/

/-- A snapshot for the examples. -/
def snapAt (t : Int) (b tree : UInt8) : Snap ObjectId :=
  ({ time := t, tz := [], author := [], tags := [], paths := [],
     tree := ⟨tree :: List.replicate 27 0, by simp⟩ }, ⟨b :: List.replicate 27 0, by simp⟩)

/-- Four snapshots, of which the second and third share a tree, as the last and first do. -/
def four : List (Snap ObjectId) := [snapAt 1 1 7, snapAt 2 2 8, snapAt 3 3 8, snapAt 4 4 7]

/-- A repository of snapshots only. -/
def repoOf (l : List (Snap ObjectId)) : Repo ObjectId := ⟨[], [], l.map (fun s => (s.2, s.1))⟩

/-- Naming two of them leaves the other two... -/
example : [ascii "LAST", ascii "HEAD~2"] ≠ [ascii "DUPLICATES"] ∧
    forget (fun _ => true) false four [ascii "LAST", ascii "HEAD~2"] (repoOf four)
      = (repoOf [snapAt 1 1 7, snapAt 3 3 8], true) := by decide +kernel

/-- ... and duplicates leave the first of each run. -/
example : (∀ i s, (i, s) ∈ (repoOf four).snapshots ↔ (s, i) ∈ four) ∧ (four.map Prod.snd).Nodup ∧
    forget (fun _ => true) false four [ascii "DUPLICATES"] (repoOf four)
      = (repoOf [snapAt 1 1 7, snapAt 2 2 8, snapAt 4 4 7], true) := by
  refine ⟨fun i s => ?_, by decide +kernel, by decide +kernel⟩
  simp only [repoOf, List.mem_map, Prod.mk.injEq]
  constructor
  · rintro ⟨⟨a, b⟩, h, rfl, rfl⟩; exact h
  · exact fun h => ⟨_, h, rfl, rfl⟩

end Backpak.C29
