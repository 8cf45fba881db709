import Verif.Lemmas.Stat
import Verif.Props.C34
import Verif.Props.C37
import Verif.Props.C38
import Verif.Props.C44

/-!
# C63 - `snapshots` shows the named snapshots in order, each with how it differs from the one before
-/

namespace Backpak.C63

open Spec

section

variable {Id : Type} [LinearOrder Id] {C : Codec Id} {ids : Ids Id} {R : Repo Id} {src : Source Id}
  {g : Graphemes} {m : Bool}

/-! ## Loading -/

/-- A forest, as loading a snapshot gives it. -/
structure Got (C : Codec Id) (R : Repo Id) (F : Forest Id) (root : Id) : Prop where
  sorted : BMap.Sorted F
  loaded : ∃ d, Holds C R root d ∧ d.KindsOk ∧ Loaded C R F root d

/-- The snapshot can be read. -/
def Held (C : Codec Id) (R : Repo Id) (s : Snapshot Id) : Prop := ∃ d, Holds C R s.tree d ∧ d.KindsOk

theorem get (hS : Sound C R) (ho : Opens R src) {s : Snapshot Id} (h : Held C R s) {cache : Forest Id}
    (hc : CacheOk C R cache) : ∃ F cache', forestFromRoot C src s.tree cache = .ok (F, cache') ∧
      Got C R F s.tree ∧ CacheOk C R cache' := by
  obtain ⟨d, hd, hk⟩ := h
  obtain ⟨F, cache', h1, h2, h3⟩ := load_from hS ho hd hc
  exact ⟨F, cache', h1, ⟨(C23.appendTree_sound hS ho _ [] s.tree ([], cache) (F, cache')
    (by simp [BMap.Sorted, BMap.keys]) hc h1).1, d, hd, hk, h2⟩, h3⟩

/-- It is always the same. -/
theorem Got.one {F F' : Forest Id} {root : Id} (h : Got C R F root) (h' : Got C R F' root) : F = F' := by
  obtain ⟨d, _, _, l⟩ := h.loaded
  obtain ⟨d', _, _, l'⟩ := h'.loaded
  refine BMap.ext_get? h.sorted h'.sorted fun id => ?_
  cases hF : F.get? id with
  | some t => exact ((l'.exact id t).mpr ((l.exact id t).mp hF)).symm
  | none =>
    cases hF' : F'.get? id with
    | none => rfl
    | some t => rw [(l.exact id t).mpr ((l'.exact id t).mp hF')] at hF; cases hF

theorem diff_eq (hH : Healthy C ids R) (ho : Opens R src) {s1 s2 : Snapshot Id} {F1 F2 : Forest Id}
    (h1 : Got C R F1 s1.tree) (h2 : Got C R F2 s2.tree) :
    ∃ L, diffSnapshots C src m s1 s2 = .ok L ∧ diffForests m F1 F2 s1.tree s2.tree = .ok L := by
  obtain ⟨d1, a1, a2, a3⟩ := h1.loaded
  obtain ⟨d2, b1, b2, b3⟩ := h2.loaded
  obtain ⟨G1, cache, g1, k1, hc⟩ := get hH.sound ho (s := s1) ⟨d1, a1, a2⟩ newTreeCache_ok
  obtain ⟨G2, cache', g2, k2, _⟩ := get hH.sound ho (s := s2) ⟨d2, b1, b2⟩ hc
  obtain rfl := h1.one k1
  obtain rfl := h2.one k2
  obtain ⟨L, h, _⟩ := C38.exactly (m := m) (C38.comparable hH a3 b3 a1 b1 a2 b2)
  exact ⟨L, by simp only [diffSnapshots, g1, g2, h], h⟩

/-! ## Nothing -/

theorem null_get (C : Codec Id) : (nullForest C).2.get? (nullForest C).1 = some [] := by
  simp [nullForest, BMap.get?]

theorem null_sub {a : Id} {t : Tree Id} (h : (nullForest C).2.get? a = some t) : t = [] ∧ a = C.emptyId := by
  have := BMap.mem_of_get? h
  simp only [nullForest, List.mem_singleton, Prod.mk.injEq] at this
  exact ⟨this.2, this.1⟩

theorem null_nodeAt (C : Codec Id) (p : Path) : nodeAt (nullForest C).2 (nullForest C).1 p = none := by
  cases p with
  | nil => simp [nodeAt]
  | cons n p => exact nodeAt_missing (null_get C) rfl p

theorem null_comparable (hH : Healthy C ids R) {s : Snapshot Id} {F : Forest Id} (h : Got C R F s.tree) :
    C38.Comparable (nullForest C).2 F (nullForest C).1 s.tree := by
  obtain ⟨d, h1, h2, h3⟩ := h.loaded
  refine ⟨.mk (null_get C) (fun s hs => by obtain ⟨_, _, hm⟩ := hs; cases hm), h3.grounded, ?_, h3.sorted, ?_,
    h3.nodesOk hH.sound h1 h2, ?_⟩
  · intro a t ht
    obtain ⟨rfl, _⟩ := null_sub ht
    exact BMap.sorted_nil
  · intro a t ht
    obtain ⟨rfl, _⟩ := null_sub ht
    intro n x hx
    cases hx
  · intro a t1 t2 g1 g2
    obtain ⟨rfl, rfl⟩ := null_sub g1
    have := ((h3.exact _ _).mp g2).2
    exact hH.sound.treeAt_one treeAt_nil this

/-! ## What should be shown -/

/-- The lines for a snapshot are right: those `diff` prints for it and the snapshot before it; for the first
one, all that is in it, as new. -/
def LinesFor (C : Codec Id) (R : Repo Id) (src : Source Id) (m : Bool) (snaps : List (Snap Id)) (i : Nat)
    (s : Snap Id) (L : List (DiffLine Id)) : Prop :=
  (∀ j s', i = j + 1 → snaps[j]? = some s' → diffSnapshots C src m s'.1 s.1 = .ok L) ∧
  (i = 0 → L.Nodup ∧ (∀ l ∈ L, l.1 = .plus) ∧
    ∀ d, Holds C R s.1.tree d → ∀ p, (∃ x, (.plus, p, x) ∈ L) ↔ ∃ e, entry d p = some e)

theorem lines_first (hH : Healthy C ids R) {snaps : List (Snap Id)} {s : Snap Id} {F : Forest Id}
    (h : Got C R F s.1.tree) :
    ∃ L, diffForests m (nullForest C).2 F (nullForest C).1 s.1.tree = .ok L ∧ LinesFor C R src m snaps 0 s L := by
  obtain ⟨L, h1, h2, h3⟩ := C38.exactly (m := m) (null_comparable hH h)
  refine ⟨L, h1, fun j s' hj => (by cases hj), fun _ => ⟨h2, ?_, ?_⟩⟩
  · rintro ⟨sg, p, x⟩ hl
    have := (h3 sg p x).mp hl
    rw [null_nodeAt, reports_new] at this
    exact this.1
  · intro d hd p
    have hl : Loaded C R F s.1.tree d := by
      obtain ⟨d', k', _, l'⟩ := h.loaded
      obtain rfl := holds_one hH.sound hd k'
      exact l'
    simp only [h3, null_nodeAt, reports_new, true_and]
    rcases hl.entry_rel p with ⟨a1, a2⟩ | ⟨x, e, a1, a2, _⟩
    · simp [a1, a2]
    · simp [a1, a2]

/-! ## Lists -/

theorem eachRes_ok {A B : Type} {f : A → Res B} {P : A → B → Prop} {l : List A} (h : ∀ a ∈ l, ∃ b, f a = .ok b ∧ P a b) :
    ∃ bs, eachRes f l = .ok bs ∧ List.Forall₂ P l bs := by
  induction l with
  | nil => exact ⟨[], rfl, .nil⟩
  | cons a l ih =>
    obtain ⟨b, h1, h2⟩ := h a List.mem_cons_self
    obtain ⟨bs, h3, h4⟩ := ih (fun a ha => h a (List.mem_cons_of_mem _ ha))
    exact ⟨b :: bs, by simp only [eachRes, h1, h3], .cons h2 h4⟩

theorem eachRes_of {A B : Type} {f : A → Res B} {l : List A} : ∀ {bs : List B}, eachRes f l = .ok bs →
    List.Forall₂ (fun a b => f a = .ok b) l bs := by
  induction l with
  | nil => intro bs h; cases h; exact .nil
  | cons a l ih =>
    intro bs h
    unfold eachRes at h
    split at h
    · cases h
    · rename_i b hb
      split at h
      · cases h
      · rename_i bs' hbs
        cases h
        exact .cons hb (ih hbs)

theorem range_get {A : Type} (l : List A) : (List.range l.length).map (fun i => l[i]?) = l.map some := by
  refine List.ext_getElem (by simp) ?_
  intro i h1 h2
  simp at h1 h2
  simp [h1]

omit [LinearOrder Id] in
/-- The positions printed are those of the wanted snapshots. -/
theorem positions_snaps (wanted : Id → Bool) (r : Bool) (snaps : List (Snap Id)) :
    (positions wanted r snaps).map (fun i => snaps[i]?) =
      (if r then (snaps.filter (fun s => wanted s.2)).reverse else snaps.filter (fun s => wanted s.2)).map some := by
  have h : ((List.range snaps.length).filter (fun i => (snaps[i]?.map (fun s => wanted s.2)).getD false)).map
      (fun i => snaps[i]?) = (snaps.filter (fun s => wanted s.2)).map some := by
    have := List.filter_map (f := fun i => snaps[i]?) (p := fun o : Option (Snap Id) => (o.map (fun s => wanted s.2)).getD false)
      (l := List.range snaps.length)
    rw [range_get, List.filter_map] at this
    exact this.symm
  unfold positions
  cases r with
  | false => exact h
  | true => simp only [if_true, List.map_reverse, h]

omit [LinearOrder Id] in
theorem mem_positions {wanted : Id → Bool} {r : Bool} {snaps : List (Snap Id)} {i : Nat}
    (h : i ∈ positions wanted r snaps) : ∃ s, snaps[i]? = some s ∧ wanted s.2 = true := by
  have : i ∈ (List.range snaps.length).filter (fun i => (snaps[i]?.map (fun s => wanted s.2)).getD false) := by
    unfold positions at h
    cases r with
    | false => exact h
    | true => exact List.mem_reverse.mp h
  obtain ⟨_, h2⟩ := List.mem_filter.mp this
  cases hs : snaps[i]? with
  | none => simp [hs] at h2
  | some s => exact ⟨s, rfl, by simpa [hs] using h2⟩

omit [LinearOrder Id] in
/-- What is printed for positions is about the snapshots there. -/
theorem shown_snaps {P : Nat → Shown Id → Prop} {snaps : List (Snap Id)} {l : List Nat} {out : List (Shown Id)}
    (h : List.Forall₂ P l out) (hP : ∀ i o, P i o → snaps[i]? = some o.snap) :
    l.map (fun i => snaps[i]?) = (out.map (·.snap)).map some := by
  induction h with
  | nil => rfl
  | cons h1 _ ih => simp only [List.map_cons, ih, hP _ _ h1]

theorem forall₂_mem {A B : Type} {P : A → B → Prop} {l : List A} {l' : List B} (h : List.Forall₂ P l l') :
    ∀ b ∈ l', ∃ a ∈ l, P a b := by
  induction h with
  | nil => simp
  | cons h1 _ ih =>
    intro b hb
    rcases List.mem_cons.mp hb with rfl | hb
    · exact ⟨_, List.mem_cons_self, h1⟩
    · obtain ⟨a, ha, hp⟩ := ih b hb
      exact ⟨a, List.mem_cons_of_mem _ ha, hp⟩

/-- The snapshots to be shown, in order. -/
def Chosen (wanted : Id → Bool) (reverse : Bool) (snaps : List (Snap Id)) : List (Snap Id) :=
  if reverse then (snaps.filter (fun s => wanted s.2)).reverse else snaps.filter (fun s => wanted s.2)

omit [LinearOrder Id] in
theorem chosen_of {P : Nat → Shown Id → Prop} {snaps : List (Snap Id)} {wanted : Id → Bool} {r : Bool}
    {out : List (Shown Id)} (h : List.Forall₂ P (positions wanted r snaps) out)
    (hP : ∀ i o, P i o → snaps[i]? = some o.snap) : out.map (·.snap) = Chosen wanted r snaps := by
  have h1 := shown_snaps h hP
  rw [positions_snaps] at h1
  exact (List.map_injective_iff.mpr (Option.some_injective _) h1).symm

/-! ## `--stat` -/

/-- Where something is wanted the forest is there. -/
theorem loadNeeded_ok (hS : Sound C R) (ho : Opens R src) (wanted : Id → Bool) {snaps : List (Snap Id)}
    (hs : ∀ s ∈ snaps, Held C R s.1) : ∀ {cache : Forest Id}, CacheOk C R cache →
    ∃ fs, loadNeeded C src wanted snaps cache = .ok fs ∧ fs.length = snaps.length ∧
      ∀ i s, snaps[i]? = some s → (wanted s.2 = true ∨ ∃ s', snaps[i + 1]? = some s' ∧ wanted s'.2 = true) →
        ∃ F, fs[i]? = some (some F) ∧ Got C R F s.1.tree := by
  induction snaps with
  | nil => exact fun _ => ⟨[], rfl, rfl, by simp⟩
  | cons s rest ih =>
    intro cache hc
    unfold loadNeeded
    by_cases hw : (wanted s.2 || nextWanted wanted rest) = true
    · rw [if_pos hw]
      obtain ⟨F, cache', h1, h2, h3⟩ := get hS ho (hs s List.mem_cons_self) hc
      obtain ⟨fs, h4, h5, h6⟩ := ih (fun s hx => hs s (List.mem_cons_of_mem _ hx)) h3
      refine ⟨some F :: fs, by simp only [h1, h4], by simp [h5], ?_⟩
      intro i s' hi hwant
      cases i with
      | zero => cases hi; exact ⟨F, rfl, h2⟩
      | succ i => exact h6 i s' hi hwant
    · rw [if_neg hw]
      obtain ⟨fs, h4, h5, h6⟩ := ih (fun s hx => hs s (List.mem_cons_of_mem _ hx)) hc
      refine ⟨none :: fs, by simp only [h4], by simp [h5], ?_⟩
      intro i s' hi hwant
      cases i with
      | zero =>
        cases hi
        exfalso
        apply hw
        rcases hwant with h | ⟨s', h, h'⟩
        · simp [h]
        · cases rest with
          | nil => cases h
          | cons a rest => cases h; simp [nextWanted, h']
      | succ i => exact h6 i s' hi hwant

/-- What is shown for the snapshot at a position is right. -/
structure Right (C : Codec Id) (R : Repo Id) (src : Source Id) (m : Bool) (snaps : List (Snap Id)) (i : Nat)
    (o : Shown Id) : Prop where
  snap : snaps[i]? = some o.snap
  about : LinesFor C R src m snaps i o.snap (o.lines.map (·.about))
  text : ∀ l ∈ o.lines, l.text = lineString l.about.2.1 l.about.2.2 ∧ l.size = none

theorem zip_get {A B : Type} {l : List A} {l' : List B} {i : Nat} {a : A} {b : B} (h : l[i]? = some a)
    (h' : l'[i]? = some b) : (l.zip l')[i]? = some (a, b) := by
  rw [List.getElem?_zip_eq_some]; exact ⟨h, h'⟩

theorem plain_right {i : Nat} {s : Snap Id} {snaps : List (Snap Id)} {L : List (DiffLine Id)} {z : Option Sizes}
    (h : snaps[i]? = some s) (hL : LinesFor C R src m snaps i s L) :
    Right C R src m snaps i { snap := s, sizes := z, lines := L.map (fun l => ⟨l, lineString l.2.1 l.2.2, none⟩) } := by
  refine ⟨h, ?_, ?_⟩
  · rw [List.map_map]
    have : ((fun x : StatLine Id => x.about) ∘ fun l : DiffLine Id => (⟨l, lineString l.2.1 l.2.2, none⟩ : StatLine Id)) = id := rfl
    rw [this, List.map_id]
    exact hL
  · intro l hl
    obtain ⟨x, _, rfl⟩ := List.mem_map.mp hl
    exact ⟨rfl, rfl⟩

/-- What a snapshot at a position is compared to, and the lines that gives. -/
theorem compared (hH : Healthy C ids R) (ho : Opens R src) {snaps : List (Snap Id)} {fs : List (Option (Forest Id))}
    {i : Nat} {s : Snap Id} (hi : snaps[i]? = some s) {F2 : Forest Id} (h2 : Got C R F2 s.1.tree)
    (hp : ∀ j s', i = j + 1 → snaps[j]? = some s' → ∃ F, fs[j]? = some (some F) ∧ Got C R F s'.1.tree) :
    ∃ r F1, previous C (snaps.zip fs) i = some (r, F1) ∧
      ∃ L, diffForests m F1 F2 r s.1.tree = .ok L ∧ LinesFor C R src m snaps i s L := by
  cases i with
  | zero =>
    obtain ⟨L, h3, h4⟩ := lines_first (m := m) (src := src) (snaps := snaps) hH h2
    exact ⟨_, _, rfl, L, h3, h4⟩
  | succ j =>
    have hj : j < snaps.length := by
      have := (List.getElem?_eq_some_iff.mp hi).1
      omega
    obtain ⟨F1, g1, g2⟩ := hp j snaps[j] rfl (List.getElem?_eq_getElem hj)
    obtain ⟨L, h3, h4⟩ := diff_eq (m := m) hH ho g2 h2
    refine ⟨snaps[j].1.tree, F1, ?_, L, h4, ?_, fun h => (by cases h)⟩
    · simp only [previous, zip_get (List.getElem?_eq_getElem hj) g1]
    · intro j' s' hj' hs'
      cases hj'
      rw [List.getElem?_eq_getElem hj] at hs'
      cases hs'
      exact h3

/-- With `--stat` the wanted snapshots are shown, in order of time or the other way round, and each with the lines
that `diff` prints for it and the snapshot just before it - the one before it of all, not of the wanted ones. -/
theorem stat (hH : Healthy C ids R) (ho : Opens R src) {snaps : List (Snap Id)} (hs : ∀ s ∈ snaps, Held C R s.1)
    (wanted : Id → Bool) (reverse : Bool) :
    ∃ out, showStat g C src m reverse wanted snaps = .ok out ∧ out.map (·.snap) = Chosen wanted reverse snaps ∧
      ∀ o ∈ out, ∃ i, Right C R src m snaps i o := by
  obtain ⟨fs, h1, h2, h3⟩ := loadNeeded_ok hH.sound ho wanted hs (newTreeCache_ok (C := C) (R := R))
  have key : ∀ i ∈ positions wanted reverse snaps, ∃ o, statOne g C m (snaps.zip fs) i = .ok o ∧ Right C R src m snaps i o := by
    intro i hi
    obtain ⟨s, h4, h5⟩ := mem_positions hi
    obtain ⟨F2, h6, h7⟩ := h3 i s h4 (.inl h5)
    obtain ⟨r, F1, h8, L, h9, h10⟩ := compared (m := m) (fs := fs) hH ho h4 h7 (by
      rintro j s' rfl hs'
      exact h3 j s' hs' (.inr ⟨s, h4, h5⟩))
    refine ⟨_, ?_, plain_right (z := none) h4 h10⟩
    simp only [statOne, h8, zip_get h4 h6, treeDiff_plain h9]
  obtain ⟨out, h4, h5⟩ := eachRes_ok key
  refine ⟨out, by simp only [showStat, h1, h4], chosen_of h5 (fun i o h => h.snap), fun o ho => ?_⟩
  obtain ⟨i, _, h6⟩ := forall₂_mem h5 o ho
  exact ⟨i, h6⟩

/-! ## `--sizes` -/

theorem decorate_ok (hS : Sound C R) (ho : Opens R src) {sm : BMap Id Nat} {snaps : List (Snap Id)}
    (hs : ∀ s ∈ snaps, Held C R s.1) : ∀ {cache : Forest Id} {v v' : BSet Id} {zs : List Sizes}, CacheOk C R cache →
    sizesEach C src sm (snaps.map Prod.fst) cache v = .ok (v', zs) →
    ∃ fs : List (Forest Id), decorate C src sm snaps cache v = .ok (fs.zip zs) ∧ fs.length = snaps.length ∧
      zs.length = snaps.length ∧ ∀ (i : Nat) (s : Snap Id), snaps[i]? = some s → ∃ F, fs[i]? = some F ∧ Got C R F s.1.tree := by
  induction snaps with
  | nil =>
    intro cache v v' zs hc h
    cases h
    exact ⟨[], rfl, rfl, rfl, by simp⟩
  | cons s rest ih =>
    intro cache v v' zs hc h
    obtain ⟨F, cache', h1, h2, h3⟩ := get hS ho (hs s List.mem_cons_self) hc
    simp only [List.map_cons, sizesEach, h1] at h
    cases h4 : forestSizes s.1.tree F sm v with
    | error e => rw [h4] at h; cases h
    | ok vz =>
      obtain ⟨v1, z⟩ := vz
      simp only [h4] at h
      cases h5 : sizesEach C src sm (rest.map Prod.fst) cache' v1 with
      | error e => rw [h5] at h; cases h
      | ok vzs =>
        obtain ⟨v2, zs'⟩ := vzs
        simp only [h5, Except.ok.injEq, Prod.mk.injEq] at h
        obtain ⟨rfl, rfl⟩ := h
        obtain ⟨fs, h6, h7, h8, h9⟩ := ih (fun s hx => hs s (List.mem_cons_of_mem _ hx)) h3 h5
        refine ⟨F :: fs, by simp only [decorate, h1, h4, h6, List.zip_cons_cons], by simp [h7], by simp [h8], ?_⟩
        intro i s' hi
        cases i with
        | zero => cases hi; exact ⟨F, rfl, h2⟩
        | succ i => exact h9 i s' hi

theorem decorate_needs {sm : BMap Id Nat} {snaps : List (Snap Id)} : ∀ {cache : Forest Id} {v : BSet Id}
    {ds : List (Forest Id × Sizes)}, decorate C src sm snaps cache v = .ok ds →
    ∃ r, sizesEach C src sm (snaps.map Prod.fst) cache v = .ok r := by
  induction snaps with
  | nil => exact fun _ => ⟨_, rfl⟩
  | cons s rest ih =>
    intro cache v ds h
    simp only [decorate, List.map_cons, sizesEach] at h ⊢
    cases h1 : forestFromRoot C src s.1.tree cache with
    | error e => rw [h1] at h; cases h
    | ok fc =>
      obtain ⟨F, cache'⟩ := fc
      simp only [h1] at h ⊢
      cases h4 : forestSizes s.1.tree F sm v with
      | error e => rw [h4] at h; cases h
      | ok vz =>
        obtain ⟨v1, z⟩ := vz
        simp only [h4] at h ⊢
        cases h5 : decorate C src sm rest cache' v1 with
        | error e => rw [h5] at h; cases h
        | ok ds' =>
          obtain ⟨r, hr⟩ := ih h5
          exact ⟨_, by rw [hr]⟩

/-- No entry has an empty name. -/
def Named (d : Dir Bytes) : Prop := ∀ p, entry d (p ++ [[]]) = none

theorem push_ne {buf c : Bytes} (h : c ≠ []) : pushPath buf c ≠ [] := by
  unfold pushPath
  split
  · exact h
  · split <;> simp [h]

omit [LinearOrder Id] in
theorem line_ne {p : Path} {n : Name} (h : n ≠ []) (x : Node Id) : lineString (p ++ [n]) x ≠ [] := by
  have h1 : pathString (p ++ [n]) ≠ [] := by
    simp only [pathString, List.foldl_append, List.foldl_cons, List.foldl_nil]
    exact push_ne h
  unfold lineString
  cases x.contents with
  | file cs => exact h1
  | dir sub =>
    dsimp only
    split
    · exact h1
    · simp
  | link tgt => simp [h1]

theorem named_line {F : Forest Id} {root : Id} {d : Dir Bytes} (h : Loaded C R F root d) (hn : Named d) {p : Path}
    {x : Node Id} (hx : nodeAt F root p = some x) (y : Node Id) : lineString p y ≠ [] := by
  rcases List.eq_nil_or_concat p with rfl | ⟨q, n, rfl⟩
  · simp [nodeAt] at hx
  · rw [List.concat_eq_append] at hx ⊢
    refine line_ne ?_ y
    rintro rfl
    rcases h.entry_rel (q ++ [[]]) with ⟨a, _⟩ | ⟨_, _, _, b, _⟩
    · rw [a] at hx; cases hx
    · rw [hn q] at b; cases b

omit [LinearOrder Id] in
/-- Every line of a comparison is about something at its path in the one or the other. -/
theorem reports_some {o o' : Option (Node Id)} {sg : Sign} {x : Node Id} (h : Reports m o o' sg x) :
    (∃ y, o = some y) ∨ ∃ y, o' = some y := by
  cases sg with
  | plus => exact .inr ⟨_, h.1⟩
  | minus => exact .inl ⟨_, h.1⟩
  | changed => exact .inl ⟨_, h.1⟩
  | md c => exact .inr ⟨_, h.2.1⟩

/-- The sizes of the file at a path, if there is one. -/
def Beside (zs : FileSizes) (p : Path) (o : Option (Nat × Nat)) : Prop :=
  (∀ v, o = some v → (p, v) ∈ zs) ∧ (o = none → ∀ v, (p, v) ∉ zs)

theorem beside_at (zs : FileSizes) (p : Path) : Beside zs p (zs.at p) := by
  unfold FileSizes.at
  cases h : zs.find? (fun e => e.1 = p) with
  | none =>
    refine ⟨fun v hv => (by cases hv), fun _ v hv => ?_⟩
    have := List.find?_eq_none.mp h _ hv
    simp at this
  | some e =>
    refine ⟨fun v hv => ?_, fun hn => (by cases hn)⟩
    cases hv
    have h1 := List.find?_some h
    have h2 := List.mem_of_find?_eq_some h
    obtain ⟨q, v⟩ := e
    have h3 : q = p := of_decide_eq_true h1
    rw [← h3]
    exact h2

/-- The text of a line is padded so that all lines come out equally long, and is followed by the sizes of the
file at its path in the snapshot. -/
def Padded (g : Graphemes) (z : Sizes) (L : List (StatLine Id)) : Prop :=
  ∃ pad, ∀ l ∈ L, ∃ k, l.text = lineString l.about.2.1 l.about.2.2 ++ List.replicate k 32 ∧
    g.count (lineString l.about.2.1 l.about.2.2) + k = pad ∧ Beside z.perFile l.about.2.1 l.size

/-- What is shown for the snapshot at a position with its sizes is right. -/
structure RightSized (g : Graphemes) (C : Codec Id) (R : Repo Id) (src : Source Id) (m fileSizes : Bool)
    (snaps : List (Snap Id)) (zs : List Sizes) (i : Nat) (o : Shown Id) : Prop where
  snap : snaps[i]? = some o.snap
  sizes : ∃ z, zs[i]? = some z ∧ o.sizes = some z ∧ (fileSizes = true → Padded g z o.lines)
  about : LinesFor C R src m snaps i o.snap (o.lines.map (·.about))
  text : fileSizes = false → ∀ l ∈ o.lines, l.text = lineString l.about.2.1 l.about.2.2 ∧ l.size = none

omit [LinearOrder Id] in
theorem padded_about (pad : Nat) (zs : FileSizes) (L : List (DiffLine Id)) :
    (L.map (padded g pad zs)).map (·.about) = L := by
  rw [List.map_map]
  have : ((fun x : StatLine Id => x.about) ∘ padded g pad zs) = id := rfl
  rw [this, List.map_id]

theorem zip_some {A B : Type} (l : List A) (l' : List B) (l'' : List Sizes) (h : l'.length = l''.length) :
    (l.zip (l'.zip l'')).map (fun e => (e.1, some e.2.1)) = l.zip (l'.map some) := by
  induction l generalizing l' l'' with
  | nil => rfl
  | cons a l ih =>
    cases l' with
    | nil => rfl
    | cons b l' =>
      cases l'' with
      | nil => cases h
      | cons c l'' =>
        simp only [List.zip_cons_cons, List.map_cons, ih l' l'' (by simpa using h)]

theorem named_lines (hH : Healthy C ids R) {snaps : List (Snap Id)} {fs : List (Forest Id)} {i : Nat}
    {s : Snap Id} (hi : snaps[i]? = some s) {F1 F2 : Forest Id} {r : Id} (h2 : Got C R F2 s.1.tree)
    (hnm : ∀ s ∈ snaps, ∀ d, Holds C R s.1.tree d → Named d)
    (hfs : ∀ (i : Nat) (s : Snap Id), snaps[i]? = some s → ∃ F, fs[i]? = some F ∧ Got C R F s.1.tree)
    (hprev : previous C (snaps.zip (fs.map some)) i = some (r, F1))
    {L : List (DiffLine Id)} (hL : diffForests m F1 F2 r s.1.tree = .ok L) :
    ∀ l ∈ L, lineString l.2.1 l.2.2 ≠ [] := by
  obtain ⟨d2, a1, a2, a3⟩ := h2.loaded
  have hn2 := hnm s (List.mem_of_getElem? hi) d2 a1
  cases i with
  | zero =>
    obtain ⟨L', g1, _, g3⟩ := C38.exactly (m := m) (null_comparable hH h2)
    simp only [previous, Option.some.injEq] at hprev
    rw [show r = (nullForest C).1 from (congrArg Prod.fst hprev).symm,
      show F1 = (nullForest C).2 from (congrArg Prod.snd hprev).symm, g1] at hL
    cases hL
    rintro ⟨sg, p, x⟩ hl
    have := (g3 sg p x).mp hl
    rw [null_nodeAt, reports_new] at this
    exact named_line a3 hn2 this.2 x
  | succ j =>
    have hj : j < snaps.length := by
      have := (List.getElem?_eq_some_iff.mp hi).1
      omega
    obtain ⟨F, k1, k2⟩ := hfs j snaps[j] (List.getElem?_eq_getElem hj)
    have hz := zip_get (List.getElem?_eq_getElem hj) (l' := fs.map some) (b := some F) (by simp [k1])
    simp only [previous, hz, Option.some.injEq, Prod.mk.injEq] at hprev
    obtain ⟨rfl, rfl⟩ := hprev
    obtain ⟨d1, b1, b2, b3⟩ := k2.loaded
    have hn1 := hnm _ (List.getElem_mem hj) d1 b1
    obtain ⟨L', g1, _, g3⟩ := C38.exactly (m := m) (C38.comparable hH b3 a3 b1 a1 b2 a2)
    rw [hL] at g1
    cases g1
    rintro ⟨sg, p, x⟩ hl
    rcases reports_some ((g3 sg p x).mp hl) with ⟨y, hy⟩ | ⟨y, hy⟩
    · exact named_line b3 hn1 hy x
    · exact named_line a3 hn2 hy x

/-- `--sizes` and `--file-sizes` work with `--stat` just when the sizes can be computed (C35); then they show the
same lines as `--stat` alone, with the sizes of C34, and with `--file-sizes` the lines are padded to one length:
neither assertion about padding can fail. -/
theorem sizes_stat (hH : Healthy C ids R) (ho : Opens R src) {snaps : List (Snap Id)} (hs : ∀ s ∈ snaps, Held C R s.1)
    (hnm : ∀ s ∈ snaps, ∀ d, Holds C R s.1.tree d → Named d) {zs : List Sizes}
    (hz : snapshotsSizes C src (snaps.map Prod.fst) = .ok zs) (fileSizes : Bool)
    (wanted : Id → Bool) (reverse : Bool) :
    ∃ out, showSizes g C src true fileSizes m reverse wanted snaps = .ok out ∧
      out.map (·.snap) = Chosen wanted reverse snaps ∧
      ∀ o ∈ out, ∃ i, RightSized g C R src m fileSizes snaps zs i o := by
  unfold snapshotsSizes at hz
  cases hsm : Index.blobToSize src.index with
  | error e => rw [hsm] at hz; cases hz
  | ok sm =>
    simp only [hsm] at hz
    cases he : sizesEach C src sm (snaps.map Prod.fst) (newTreeCache C) [] with
    | error e => rw [he] at hz; cases hz
    | ok r =>
      obtain ⟨v, zs'⟩ := r
      simp only [he, Except.ok.injEq] at hz
      subst hz
      obtain ⟨fs, h1, h2, h3, h4⟩ := decorate_ok hH.sound ho hs newTreeCache_ok he
      have key : ∀ i ∈ positions wanted reverse snaps, ∃ o,
          sizesOne g C true fileSizes m (snaps.zip (fs.zip zs')) i = .ok o ∧
            RightSized g C R src m fileSizes snaps zs' i o := by
        intro i hi
        obtain ⟨s, h5, h6⟩ := mem_positions hi
        obtain ⟨F2, h7, h8⟩ := h4 i s h5
        have hlt : i < zs'.length := by rw [h3]; exact (List.getElem?_eq_some_iff.mp h5).1
        have hz := List.getElem?_eq_getElem hlt
        obtain ⟨r, F1, h9, L, h10, h11⟩ := compared (m := m) (fs := fs.map some) hH ho h5 h8 (by
          rintro j s' rfl hs'
          obtain ⟨F, k1, k2⟩ := h4 j s' hs'
          exact ⟨F, by simp [k1], k2⟩)
        have hne := named_lines hH h5 h8 hnm h4 h9 h10
        have hall := zip_get h5 (zip_get h7 hz)
        unfold sizesOne
        rw [zip_some _ _ _ (by rw [h2, h3]), h9, hall]
        dsimp only
        rw [if_pos rfl]
        cases fileSizes with
        | false =>
          have := plain_right (z := some zs'[i]) h5 h11
          exact ⟨_, by rw [treeDiff_plain h10]; rfl, this.snap, ⟨_, hz, rfl, fun h => (by cases h)⟩, this.about,
            fun _ => this.text⟩
        | true =>
          obtain ⟨pad, hp1, hp2⟩ := measurePad_ok (g := g) h10
          refine ⟨{ snap := s, sizes := some zs'[i], lines := L.map (padded g pad zs'[i].perFile) }, ?_,
            h5, ⟨_, hz, rfl, fun _ => ⟨pad, ?_⟩⟩, ?_, fun h => (by cases h)⟩
          · rw [if_pos rfl, hp1]
            dsimp only
            rw [treeDiff_sizes h10 hp2 hne]
          · intro l hl
            obtain ⟨x, hx, rfl⟩ := List.mem_map.mp hl
            refine ⟨_, rfl, ?_, beside_at _ _⟩
            have h1 := lineString_count g x.2.1 x.2.2
            have h2 := hp2 x hx
            show g.count (lineString x.2.1 x.2.2) + (pad - g.count (lineString x.2.1 x.2.2)) = pad
            omega
          · rw [padded_about]; exact h11
      obtain ⟨out, h5, h6⟩ := eachRes_ok key
      refine ⟨out, by simp only [showSizes, hsm, h1, h5], chosen_of h6 (fun i o h => h.snap), fun o ho => ?_⟩
      obtain ⟨i, _, h7⟩ := forall₂_mem h6 o ho
      exact ⟨i, h7⟩

/-- With `--file-sizes` alone: the files of the snapshot that brought new data, those that brought most first. -/
theorem sizes_files (hH : Healthy C ids R) (ho : Opens R src) {snaps : List (Snap Id)} (hs : ∀ s ∈ snaps, Held C R s.1)
    {zs : List Sizes} (hz : snapshotsSizes C src (snaps.map Prod.fst) = .ok zs) (fileSizes : Bool)
    (wanted : Id → Bool) (reverse : Bool) :
    ∃ out, showSizes g C src false fileSizes m reverse wanted snaps = .ok out ∧
      out.map (·.snap) = Chosen wanted reverse snaps ∧
      ∀ o ∈ out, ∃ (i : Nat) (z : Sizes), snaps[i]? = some o.snap ∧ zs[i]? = some z ∧ o.sizes = some z ∧ o.lines = [] ∧
        (fileSizes = false → o.files = []) ∧
        (fileSizes = true → o.files.Perm (z.perFile.filter (fun e => 0 < e.2.1)) ∧
          o.files.Pairwise (fun a b => b.2.1 ≤ a.2.1)) := by
  unfold snapshotsSizes at hz
  cases hsm : Index.blobToSize src.index with
  | error e => rw [hsm] at hz; cases hz
  | ok sm =>
    simp only [hsm] at hz
    cases he : sizesEach C src sm (snaps.map Prod.fst) (newTreeCache C) [] with
    | error e => rw [he] at hz; cases hz
    | ok r =>
      obtain ⟨v, zs'⟩ := r
      simp only [he, Except.ok.injEq] at hz
      subst hz
      obtain ⟨fs, h1, h2, h3, h4⟩ := decorate_ok hH.sound ho hs newTreeCache_ok he
      have key : ∀ i ∈ positions wanted reverse snaps, ∃ o,
          sizesOne g C false fileSizes m (snaps.zip (fs.zip zs')) i = .ok o ∧ ∃ z,
            snaps[i]? = some o.snap ∧ zs'[i]? = some z ∧ o.sizes = some z ∧ o.lines = [] ∧
            o.files = if fileSizes then filesShown z else [] := by
        intro i hi
        obtain ⟨s, h5, h6⟩ := mem_positions hi
        obtain ⟨F2, h7, h8⟩ := h4 i s h5
        have hlt : i < zs'.length := by rw [h3]; exact (List.getElem?_eq_some_iff.mp h5).1
        have hz := List.getElem?_eq_getElem hlt
        obtain ⟨r, F1, h9, _⟩ := compared (m := m) (fs := fs.map some) hH ho h5 h8 (by
          rintro j s' rfl hs'
          obtain ⟨F, k1, k2⟩ := h4 j s' hs'
          exact ⟨F, by simp [k1], k2⟩)
        have hall := zip_get h5 (zip_get h7 hz)
        unfold sizesOne
        rw [zip_some _ _ _ (by rw [h2, h3]), h9, hall]
        exact ⟨_, rfl, _, h5, hz, rfl, rfl, rfl⟩
      obtain ⟨out, h5, h6⟩ := eachRes_ok key
      refine ⟨out, by simp only [showSizes, hsm, h1, h5], chosen_of h6 (fun i o h => h.choose_spec.1), fun o ho => ?_⟩
      obtain ⟨i, _, z, h7, h8, h9, h10, h11⟩ := forall₂_mem h6 o ho
      refine ⟨i, z, h7, h8, h9, h10, ?_, ?_⟩
      · rintro rfl; exact h11
      · rintro rfl
        rw [h11, if_pos rfl]
        unfold filesShown
        refine ⟨(List.reverse_perm _).trans (List.perm_insertionSort _ _), ?_⟩
        rw [List.pairwise_reverse]
        have : IsTrans (Path × (Nat × Nat)) (fun a b => a.2.1 ≤ b.2.1) := ⟨fun _ _ _ h h' => Nat.le_trans h h'⟩
        have : Std.Total (fun a b : Path × (Nat × Nat) => a.2.1 ≤ b.2.1) := ⟨fun a b => Nat.le_total _ _⟩
        exact List.pairwise_insertionSort _ _

/-- Whatever is wrong with the repository: if anything is shown, then all the wanted snapshots are. -/
theorem all_or_nothing {snaps : List (Snap Id)} {stat fileSizes reverse : Bool} {wanted : Id → Bool} {out : List (Shown Id)}
    (h : showStat g C src m reverse wanted snaps = .ok out ∨
      showSizes g C src stat fileSizes m reverse wanted snaps = .ok out) :
    out.map (·.snap) = Chosen wanted reverse snaps := by
  rcases h with h | h
  · unfold showStat at h
    split at h
    · cases h
    · rename_i fs _
      refine chosen_of (eachRes_of h) (fun i o hi => ?_)
      unfold statOne at hi
      split at hi
      · rename_i r F1 s F2 _ ha
        split at hi
        · cases hi
        · cases hi
          exact (List.getElem?_zip_eq_some.mp ha).1
      · cases hi
  · unfold showSizes at h
    split at h
    · cases h
    · split at h
      · cases h
      · refine chosen_of (eachRes_of h) (fun i o hi => ?_)
        unfold sizesOne at hi
        split at hi
        · rename_i r F1 s F2 z _ ha
          have hs := (List.getElem?_zip_eq_some.mp ha).1
          split at hi
          · split at hi
            · split at hi
              · cases hi
              · split at hi
                · cases hi
                · cases hi; exact hs
            · split at hi
              · cases hi
              · cases hi; exact hs
          · cases hi; exact hs
        · cases hi

/-- If the sizes cannot be computed nothing is shown. -/
theorem sizes_needed {snaps : List (Snap Id)} {stat fileSizes reverse : Bool} {wanted : Id → Bool} {out : List (Shown Id)}
    (h : showSizes g C src stat fileSizes m reverse wanted snaps = .ok out) :
    ∃ zs, snapshotsSizes C src (snaps.map Prod.fst) = .ok zs := by
  unfold showSizes at h
  unfold snapshotsSizes
  cases hsm : Index.blobToSize src.index with
  | error e => rw [hsm] at h; cases h
  | ok sm =>
    simp only [hsm] at h ⊢
    cases hd : decorate C src sm snaps (newTreeCache C) [] with
    | error e => rw [hd] at h; cases h
    | ok ds =>
      obtain ⟨r, hr⟩ := decorate_needs hd
      exact ⟨r.2, by rw [hr]⟩

end

/-! ## Names -/

/-- The snapshots named by the arguments; all, if there are no arguments. -/
def IsNamed (snaps : List (Snap ObjectId)) (names : List Bytes) (s : Snap ObjectId) : Prop :=
  names = [] ∨ ∃ n ∈ names, findSnap snaps n = .ok s

theorem args_mem {l : List (Snap ObjectId)} (hd : C36.Distinct l) {args : List Bytes} {out : List (Snap ObjectId)}
    (h : fromArgsList l args = .ok out) (s : Snap ObjectId) : s ∈ out ↔ ∃ a ∈ args, findSnap l a = .ok s := by
  unfold fromArgsList at h
  cases hf : findAll l args with
  | error e => rw [hf] at h; cases h
  | ok found =>
    rw [hf] at h
    cases h
    have hmem := C37.findAll_mem l args found hf
    have hin : ∀ s ∈ sortSnaps found, s ∈ l := by
      intro s hs
      obtain ⟨a, _, ha⟩ := (hmem s).mp ((Backpak.sort_perm found).mem_iff.mp hs)
      exact (C36.never_wrong l a s ha).1
    have hsub := C37.dedup_sublist (sortSnaps found)
    rw [← hmem s, ← (Backpak.sort_perm found).mem_iff]
    refine ⟨fun hs => hsub.subset hs, fun hs => ?_⟩
    have : ∃ s' ∈ dedupSnaps (sortSnaps found), s'.2 = s.2 := by
      revert hs
      cases sortSnaps found with
      | nil => intro hs; cases hs
      | cons a r =>
        intro hs
        rcases List.mem_cons.mp hs with rfl | hs
        · exact ⟨s, by simp [dedupSnaps], rfl⟩
        · rcases C37.dedupAfter_covers r a.2 s hs with h | ⟨s', h1, h2⟩
          · exact ⟨a, by simp [dedupSnaps], h.symm⟩
          · exact ⟨s', by simp [dedupSnaps, h1], h2⟩
    obtain ⟨s', h1, h2⟩ := this
    rwa [← C36.distinct_one hd (hin s' (hsub.subset h1)) (hin s hs) h2]

theorem args_empty {l : List (Snap ObjectId)} (hd : C36.Distinct l) {args : List Bytes} {out : List (Snap ObjectId)}
    (h : fromArgsList l args = .ok out) : out = [] ↔ args = [] := by
  constructor
  · intro ho
    cases args with
    | nil => rfl
    | cons a args =>
      obtain ⟨s, hs⟩ := (C37.succeeds_iff l _).mp ⟨_, h⟩ a List.mem_cons_self
      have := (args_mem hd h s).mpr ⟨a, List.mem_cons_self, hs⟩
      rw [ho] at this
      cases this
  · rintro rfl
    refine List.eq_nil_iff_forall_not_mem.mpr fun s hs => ?_
    obtain ⟨a, ha, _⟩ := (args_mem hd h s).mp hs
    cases ha

/-- What is picked out of all snapshots by ID is what was named. -/
theorem wanted_iff {l : List (Snap ObjectId)} (hd : C36.Distinct l) {args : List Bytes} {sal : List (Snap ObjectId)}
    (h : fromArgsList l args = .ok sal) {s : Snap ObjectId} (hs : s ∈ l) :
    s.2 ∈ (if sal.isEmpty then l else sal).map Prod.snd ↔ IsNamed l args s := by
  unfold IsNamed
  by_cases he : sal = []
  · have ha := (args_empty hd h).mp he
    subst he
    simp only [List.isEmpty_nil, if_true, ha, true_or, iff_true]
    exact List.mem_map.mpr ⟨s, hs, rfl⟩
  · have ha : args ≠ [] := fun ha => he ((args_empty hd h).mpr ha)
    have hf : sal.isEmpty = false := by simpa using he
    simp only [hf, ha, false_or]
    constructor
    · intro hm
      obtain ⟨s', h1, h2⟩ := List.mem_map.mp hm
      obtain ⟨a, h3, h4⟩ := (args_mem hd h s').mp h1
      obtain rfl := C36.distinct_one hd (C36.never_wrong l a s' h4).1 hs h2
      exact ⟨a, h3, h4⟩
    · intro hx
      exact List.mem_map.mpr ⟨s, (args_mem hd h s).mpr hx, rfl⟩

variable {C : Codec ObjectId} {ids : Ids ObjectId} {R : Repo ObjectId} {src : Source ObjectId} {g : Graphemes}

/-- The command with `--stat`: the snapshots shown are those named, in the order of all snapshots or the other way
round, each with how it differs from the snapshot before it. -/
theorem command_stat (hH : Healthy C ids R) (ho : Opens R src) {snaps : List (Snap ObjectId)} (hd : C36.Distinct snaps)
    (hs : ∀ s ∈ snaps, Held C R s.1) (a : ShowArgs) (hstat : a.stat = true) (hsz : a.sizes = false)
    (hfs : a.fileSizes = false) (hn : ∀ n ∈ a.names, ∃ s, findSnap snaps n = .ok s) :
    ∃ out, showSnapshots g C src a snaps = .ok out ∧
      (out.map (·.snap)).Sublist (if a.reverse then snaps.reverse else snaps) ∧
      (∀ s, s ∈ out.map (·.snap) ↔ s ∈ snaps ∧ IsNamed snaps a.names s) ∧
      ∀ o ∈ out, ∃ i, Right C R src a.withMeta snaps i o := by
  obtain ⟨sal, h1⟩ := (C37.succeeds_iff snaps a.names).mpr hn
  obtain ⟨out, h2, h3, h4⟩ := stat (g := g) (m := a.withMeta) hH ho hs
    (fun id => decide (id ∈ (if sal.isEmpty then snaps else sal).map Prod.snd)) a.reverse
  refine ⟨out, by simp only [showSnapshots, h1, hsz, hfs, hstat, Bool.or_false, Bool.false_eq_true, if_false, if_true]; exact h2,
    ?_, fun s => ?_, h4⟩
  · rw [h3]
    unfold Chosen
    cases a.reverse with
    | false => exact List.filter_sublist
    | true => exact List.filter_sublist.reverse
  · rw [h3]
    have hm : s ∈ Chosen (fun id => decide (id ∈ (if sal.isEmpty then snaps else sal).map Prod.snd)) a.reverse snaps ↔
        s ∈ snaps ∧ s.2 ∈ (if sal.isEmpty then snaps else sal).map Prod.snd := by
      unfold Chosen
      cases a.reverse with
      | false => simp only [Bool.false_eq_true, if_false, List.mem_filter, decide_eq_true_eq]
      | true => simp only [if_true, List.mem_reverse, List.mem_filter, decide_eq_true_eq]
    rw [hm]
    exact and_congr_right fun h => wanted_iff hd h1 h

/-! ## Example -/

/-- Every name has something in it. -/
def NoBlank : Dir Bytes → Prop
  | .nil => True
  | .leaf n _ _ r => n ≠ [] ∧ NoBlank r
  | .dir n _ s r => n ≠ [] ∧ NoBlank s ∧ NoBlank r

theorem noBlank_child {d : Dir Bytes} (h : NoBlank d) {n : Name} {e : (Meta × Option (Leaf Bytes)) × Dir Bytes}
    (hc : child d n = some e) : n ≠ [] ∧ NoBlank e.2 := by
  induction d with
  | nil => cases hc
  | leaf m md l r ih =>
    simp only [child] at hc
    split at hc
    · rename_i he
      cases hc
      exact ⟨he ▸ h.1, trivial⟩
    · exact ih h.2 hc
  | dir m md s r _ ih =>
    simp only [child] at hc
    split at hc
    · rename_i he
      cases hc
      exact ⟨he ▸ h.1, h.2.1⟩
    · exact ih h.2.2 hc

theorem noBlank_named {d : Dir Bytes} (h : NoBlank d) : Named d := by
  intro p
  induction p generalizing d with
  | nil =>
    simp only [List.nil_append, entry]
    cases hc : child d [] with
    | none => rfl
    | some e => exact absurd rfl (noBlank_child h hc).1
  | cons n p ih =>
    have hne : p ++ [[]] ≠ [] := by simp
    rw [List.cons_append, C44.entry_cons hne]
    cases hc : child d n with
    | none => rfl
    | some e =>
      obtain ⟨⟨md, l⟩, sub⟩ := e
      cases l with
      | some l => rfl
      | none => exact ih (noBlank_child h hc).2

/-- One cluster per byte. -/
def bytewise : Graphemes := ⟨List.length, fun a b => by simp, rfl, rfl, fun a h => List.length_pos_iff.mpr h⟩

def snapsE : List (Snap ObjectId) := [(C38.snap1, Demo.pruneIds.snapId C38.snap1), (C38.snap2, Demo.pruneIds.snapId C38.snap2)]

example : Healthy Demo.codec Demo.pruneIds C38.repo12 ∧ Opens C38.repo12 (Check.opened C38.repo12) ∧ C36.Distinct snapsE ∧
    (∀ s ∈ snapsE, Held Demo.codec C38.repo12 s.1) ∧
    (∀ s ∈ snapsE, ∀ d, Holds Demo.codec C38.repo12 s.1.tree d → Named d) ∧ (∀ n ∈ [ascii "LAST"], ∃ s, findSnap snapsE n = .ok s) ∧
    ∃ zs, snapshotsSizes Demo.codec (Check.opened C38.repo12) (snapsE.map Prod.fst) = .ok zs := by
  refine ⟨C38.healthy12, Check.opened_opens C38.healthy12, by unfold C36.Distinct; decide +kernel, ?_, ?_, ?_, ?_⟩
  rotate_left
  · intro s hs d hd
    refine noBlank_named ?_
    simp only [snapsE, List.mem_cons, List.not_mem_nil, or_false] at hs
    rcases hs with rfl | rfl
    · rw [holds_one C38.healthy12.sound hd C38.holds1]
      simp [NoBlank, C38.dir1, C38.dirB]
    · rw [holds_one C38.healthy12.sound hd C38.holds2]
      simp [NoBlank, C38.dir2, C38.dirB]
  rotate_right
  · intro s hs
    simp only [snapsE, List.mem_cons, List.not_mem_nil, or_false] at hs
    rcases hs with rfl | rfl
    · exact ⟨_, C38.holds1, by simp only [C38.dir1, C38.dirB, Dir.KindsOk]; decide +kernel⟩
    · exact ⟨_, C38.holds2, by simp only [C38.dir2, C38.dirB, Dir.KindsOk]; decide +kernel⟩
  · intro n hn
    cases List.mem_singleton.mp hn
    exact ⟨(C38.snap2, Demo.pruneIds.snapId C38.snap2), by decide +kernel⟩
  · have : (snapshotsSizes Demo.codec (Check.opened C38.repo12) (snapsE.map Prod.fst)).isOk = true := by decide +kernel
    cases h : snapshotsSizes Demo.codec (Check.opened C38.repo12) (snapsE.map Prod.fst) with
    | error e => rw [h] at this; cases this
    | ok zs => exact ⟨zs, rfl⟩

/-- The last snapshot, with what is new in it. -/
theorem example_stat : (showSnapshots bytewise Demo.codec (Check.opened C38.repo12) { stat := true, names := [ascii "LAST"] }
      snapsE).toOption.map (fun l => l.map fun o => (o.snap.1.time, o.lines.map fun e => (e.about.1, e.text))) =
    some [(2, [(.changed, ascii "a"), (.minus, ascii "d/"), (.minus, ascii "d/b"), (.plus, ascii "d"),
      (.minus, ascii "l -> /etc"), (.plus, ascii "l -> /usr"), (.plus, ascii "n/"), (.plus, ascii "n/b")])] := by
  decide +kernel

/-- The sizes beside a line are those of the file now at that path, also if the line says that something was removed
from there: where a file replaces a directory, the line about the directory has the file's sizes. -/
theorem removed_has_sizes : ∃ out, showSnapshots bytewise Demo.codec (Check.opened C38.repo12)
      { stat := true, fileSizes := true, names := [ascii "LAST"] } snapsE = .ok out ∧
    ∃ o ∈ out, ∃ l ∈ o.lines, l.about.1 = .minus ∧ (∃ sub, l.about.2.2.contents = .dir sub) ∧ l.size.isSome = true := by
  have h : (showSnapshots bytewise Demo.codec (Check.opened C38.repo12)
      { stat := true, fileSizes := true, names := [ascii "LAST"] } snapsE).toOption.map (fun out => out.any fun o =>
        o.lines.any fun l => decide (l.about.1 = .minus) && decide (l.about.2.2.contents.kind = .dir) && l.size.isSome) =
      some true := by decide +kernel
  cases hs : showSnapshots bytewise Demo.codec (Check.opened C38.repo12)
      { stat := true, fileSizes := true, names := [ascii "LAST"] } snapsE with
  | error e => rw [hs] at h; cases h
  | ok out =>
    rw [hs] at h
    simp only [Except.toOption, Option.map_some, Option.some.injEq, List.any_eq_true, Bool.and_eq_true,
      decide_eq_true_eq] at h
    obtain ⟨o, h1, l, h2, ⟨h3, h4⟩, h5⟩ := h
    refine ⟨out, rfl, o, h1, l, h2, h3, ?_, h5⟩
    cases hc : l.about.2.2.contents with
    | dir sub => exact ⟨sub, rfl⟩
    | file cs => rw [hc] at h4; cases h4
    | link t => rw [hc] at h4; cases h4

end Backpak.C63
