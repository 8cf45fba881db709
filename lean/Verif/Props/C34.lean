import Verif.Lemmas.Sizes
import Verif.Lemmas.Prune
import Verif.Lemmas.DemoPrune

/-!
# C34 - Size accounting adds up
-/

namespace Backpak.C34

open Spec

variable {Id : Type} [LinearOrder Id] {C : Codec Id} {ids : Ids Id} {R : Repo Id} {src : Source Id}

/-- The size table of a sound repository. -/
structure SizesOf (C : Codec Id) (R : Repo Id) (sm : BMap Id Nat) : Prop where
  known : ∀ b, Has C R b → sm.get? b.id = some b.data.length
  stored : ∀ id n, sm.get? id = some n → ∃ b, Has C R b ∧ b.id = id

theorem sizes_of (hS : Sound C R) (ho : Opens R src) :
    ∃ sm, Index.blobToSize src.index = .ok sm ∧ SizesOf C R sm := by
  obtain ⟨sm, hsm⟩ := (C18.refused_iff src.index).2.2.mpr ((C18.refused_iff src.index).1.mp ⟨_, ho.blobMap⟩)
  refine ⟨sm, hsm, ?_, ?_⟩
  · rintro b hb
    obtain ⟨_, p, bs, hl, hp, hm⟩ := hb
    exact (C18.size_iff _ _ hsm b.id _).mpr ⟨p, _, ⟨b.kind, b.data.length, b.id⟩, (opens_mem hS ho p _).mpr hl,
      List.mem_map.mpr ⟨b, hm, rfl⟩, rfl, rfl⟩
  · intro id n h
    obtain ⟨p, m, e, h1, h2, rfl, _⟩ := (C18.size_iff _ _ hsm id n).mp h
    have hl := (opens_mem hS ho p m).mp h1
    obtain ⟨bs, h3, rfl⟩ := hS.present p m hl
    obtain ⟨b, h4, rfl⟩ := List.mem_map.mp h2
    exact ⟨b, ⟨hS.hashes p bs b hl h3 h4, p, bs, hl, h3, h4⟩, rfl⟩

variable {sm : BMap Id Nat}

theorem SizesOf.chunks (h : SizesOf C R sm) : ChunksSized sm (FileHolds C R) := by
  intro cs x hx
  induction hx with
  | nil => exact ⟨by simp, rfl⟩
  | @cons c y cs z h1 _ ih =>
    have := h.known _ h1
    refine ⟨?_, ?_⟩
    · intro c' hc
      rcases List.mem_cons.mp hc with rfl | hc
      · exact ⟨_, this⟩
      · exact ih.1 c' hc
    · have h2 : sizeIn sm c = y.length := by unfold sizeIn; rw [this]; rfl
      rw [List.map_cons, List.sum_cons, ih.2, h2, List.length_append]

/-- The trees of a forest are those of the repository. -/
theorem reaches_iff {F : Forest Id} {root : Id} {d : Dir Bytes} (h : Loaded C R F root d) (u : Id) :
    Reaches (InForest F) root u ↔ (Reaches (TreeAt C R) root u ∧ ∃ t, F.get? u = some t) := by
  have key : ∀ {a b : Id}, Reaches (TreeAt C R) a b → Reaches (TreeAt C R) root a →
      Reaches (InForest F) a b := by
    intro a b hr
    induction hr with
    | refl => intro _; exact .refl
    | step h1 h2 _ ih =>
      intro ha
      exact .step ((h.exact _ _).mpr ⟨ha, h1⟩) h2 (ih (ha.trans (.step h1 h2 .refl)))
  constructor
  · intro hr
    have key' : ∀ {a b : Id}, Reaches (InForest F) a b → Reaches (TreeAt C R) a b := by
      intro a b hr
      induction hr with
      | refl => exact .refl
      | step h1 h2 _ ih => exact .step ((h.exact _ _).mp h1).2 h2 ih
    refine ⟨key' hr, ?_⟩
    cases Grounded.reach (T := InForest F) (fun _ _ _ => InForest.one) h.grounded hr with
    | mk ht _ => exact ⟨_, ht⟩
  · rintro ⟨hr, _⟩
    exact key hr .refl

omit [LinearOrder Id] in
theorem treeBytes_mono {w w' : Id → Tree Id → Nat} {T T' : Id → Tree Id → Prop} {t : Tree Id} {k : Nat}
    (h : TreeBytes w T t k) :
    (∀ id t', T id t' → (∃ s, Sub t s ∧ Reaches T s id) → T' id t' ∧ w id t' = w' id t') → TreeBytes w' T' t k := by
  induction h with
  | nil => intro _; exact .nil
  | file _ ih =>
    intro hw
    exact .file (ih (fun id t' h1 ⟨s, ⟨n, md, h2⟩, h3⟩ =>
      hw id t' h1 ⟨s, ⟨n, md, List.mem_cons_of_mem _ h2⟩, h3⟩))
  | link _ ih =>
    intro hw
    exact .link (ih (fun id t' h1 ⟨s, ⟨n, md, h2⟩, h3⟩ =>
      hw id t' h1 ⟨s, ⟨n, md, List.mem_cons_of_mem _ h2⟩, h3⟩))
  | @dir n id md t t' k' k h1 _ _ ih1 ih2 =>
    intro hw
    have hs : Sub ((n, (⟨.dir id, md⟩ : Node Id)) :: t) id := ⟨n, md, List.mem_cons_self ..⟩
    obtain ⟨g1, g2⟩ := hw id t' h1 ⟨id, hs, .refl⟩
    rw [g2]
    refine .dir g1 (ih1 ?_) (ih2 ?_)
    · rintro i u hu ⟨s, ⟨m, md', h2⟩, h3⟩
      exact hw i u hu ⟨id, hs, .step h1 h2 h3⟩
    · rintro i u hu ⟨s, ⟨m, md', h2⟩, h3⟩
      exact hw i u hu ⟨s, ⟨m, md', List.mem_cons_of_mem _ h2⟩, h3⟩

omit [LinearOrder Id] in
/-- Without empty directories there are no empty trees. -/
theorem none_empty {T : Id → Tree Id → Prop} {PF : List Id → Bytes → Prop}
    (hone : ∀ id t t', T id t → T id t' → t = t') {root u : Id} (hr : Reaches T root u) :
    ∀ {t : Tree Id} {d : Dir Bytes}, T root t → DirRel PF T t d → d ≠ .nil → NoneEmpty d →
      ∃ t' d', T u t' ∧ t' ≠ [] ∧ DirRel PF T t' d' := by
  induction hr with
  | refl =>
    intro t d h1 h2 h3 _
    refine ⟨t, d, h1, ?_, h2⟩
    rintro rfl
    cases h2
    exact h3 rfl
  | @step id t0 n s md u h1 h2 _ ih =>
    intro t d h3 h4 h5 h6
    have := hone _ _ _ h1 h3
    subst this
    have : ∃ t' d', T s t' ∧ DirRel PF T t' d' ∧ d' ≠ .nil ∧ NoneEmpty d' := by
      clear ih h1 h3 h5
      induction h4 with
      | nil => cases h2
      | file _ _ ih' =>
        rcases List.mem_cons.mp h2 with h | h
        · cases h
        · exact ih' h h6
      | link _ ih' =>
        rcases List.mem_cons.mp h2 with h | h
        · cases h
        · exact ih' h h6
      | dir g1 g2 _ _ ih' =>
        rcases List.mem_cons.mp h2 with h | h
        · cases h; exact ⟨_, _, g1, g2, h6.1, h6.2.1⟩
        · exact ih' h h6.2.2
    obtain ⟨t', d', g1, g2, g3, g4⟩ := this
    exact ih g1 g2 g3 g4

omit [LinearOrder Id] in
theorem mem_chunks {t : Tree Id} {c : Id} :
    c ∈ chunksInTree t ↔ ∃ n cs md, (n, (⟨.file cs, md⟩ : Node Id)) ∈ t ∧ c ∈ cs := by
  unfold chunksInTree
  rw [List.mem_flatMap]
  constructor
  · rintro ⟨⟨n, x⟩, h1, h2⟩
    obtain ⟨y, md⟩ := x
    cases y with
    | file cs => exact ⟨n, cs, md, h1, h2⟩
    | dir _ => cases h2
    | link _ => cases h2
  · rintro ⟨n, cs, md, h1, h2⟩
    exact ⟨_, h1, h2⟩

/-- All trees below are stored, the empty one as well. -/
def TreesStored (C : Codec Id) (R : Repo Id) (root : Id) : Prop :=
  ∀ u t, Reaches (TreeAt C R) root u → TreeAt C R u t → ∃ b, Has C R b ∧ b.id = u ∧ b.data = C.encTree t

/-- If there are no empty directories then all trees are stored. -/
theorem stored_of_none_empty (hS : Sound C R) {root : Id} {d : Dir Bytes} (hd : Holds C R root d) (hne : d ≠ .nil)
    (hno : NoneEmpty d) : TreesStored C R root := by
  obtain ⟨t0, h1, h2⟩ := hd
  intro u t hr hu
  obtain ⟨t', d', g1, g2, _⟩ := none_empty (T := TreeAt C R) (fun _ _ _ a b => hS.treeAt_one a b) hr h1 h2 hne hno
  have := hS.treeAt_one hu g1
  subst this
  exact ⟨_, hu.2.2.resolve_left g2, rfl, rfl⟩

/-- Blobs occurring in a snapshot are blobs it uses. -/
theorem used_iff (hS : Sound C R) {root : Id} {d : Dir Bytes} (hd : Holds C R root d) (hst : TreesStored C R root)
    (x : Id) : Occurs (TreeAt C R) root x ↔ ∃ b, Used C R root b ∧ b.id = x := by
  obtain ⟨t0, h1, h2⟩ := hd
  constructor
  · rintro ⟨u, t, hr, hu, hx⟩
    obtain ⟨t', d', g1, g3, _⟩ := Loaded.reached (P := fun _ => True) (fun _ _ _ _ _ => ⟨trivial, trivial⟩)
      (fun _ _ _ _ _ => trivial) (T := TreeAt C R) (fun _ _ _ a b => hS.treeAt_one a b) hr h1 h2 trivial
    have := hS.treeAt_one hu g1
    subst this
    rcases hx with rfl | hx
    · obtain ⟨b, hb, rfl, _⟩ := hst x t hr hu
      exact ⟨b, ⟨hb, b.id, t, hr, hu, .inl rfl⟩, rfl⟩
    · obtain ⟨y, hy⟩ := holds_chunk g3 hx
      exact ⟨⟨y, x, .chunk⟩, ⟨hy, u, t, hr, hu, .inr (mem_chunks.mp hx)⟩, rfl⟩
  · rintro ⟨b, ⟨_, u, t, hr, hu, hx⟩, rfl⟩
    refine ⟨u, t, hr, hu, ?_⟩
    rcases hx with h | h
    · exact .inl h
    · exact .inr (mem_chunks.mpr h)

/-- The size of newly visited blobs. -/
theorem weigh_new (hS : Sound C R) (hm : SizesOf C R sm) {v v' : BSet Id} (hv : BSet.Sorted v)
    (hv' : BSet.Sorted v') {L : List (Blob Id)} (hL : L.Nodup) (hh : ∀ b ∈ L, Has C R b)
    (hout : ∀ b ∈ L, b.id ∉ v) (hmem : ∀ x, x ∈ v' ↔ x ∈ v ∨ ∃ b ∈ L, b.id = x) :
    weigh sm v' = weigh sm v + (L.map (·.data.length)).sum := by
  have hLi : (L.map Blob.id).Nodup := by
    refine List.Nodup.map_on ?_ hL
    intro a ha b hb hab
    exact hS.has_one (hh a ha) (hh b hb) hab
  have hp : v'.Perm (v ++ L.map Blob.id) := by
    refine (List.perm_ext_iff_of_nodup (hv'.imp (fun h => ne_of_lt h)) ?_).mpr ?_
    · rw [List.nodup_append]
      refine ⟨hv.imp (fun h => ne_of_lt h), hLi, ?_⟩
      rintro a ha b hb rfl
      obtain ⟨c, hc, rfl⟩ := List.mem_map.mp hb
      exact hout c hc ha
    · intro x
      rw [hmem, List.mem_append, List.mem_map]
  have hs : ∀ L : List (Blob Id), (∀ b ∈ L, Has C R b) →
      (L.map Blob.id).map (sizeIn sm) = L.map (·.data.length) := by
    intro L hh
    rw [List.map_map]
    refine List.map_congr_left (fun b hb => ?_)
    show sizeIn sm b.id = _
    unfold sizeIn
    rw [hm.known b (hh b hb)]; rfl
  unfold weigh
  rw [(hp.map _).sum_eq, List.map_append, List.sum_append, hs L hh]

/-- The sizes of a snapshot are right: `tree` and `chunk` bytes are those of its trees and files,
each as often as it occurs; introduced and reused bytes come to the same; introduced bytes are those of
the blobs that it uses and none of the snapshots `before` it does; and likewise for each file. -/
structure Right (C : Codec Id) (R : Repo Id) (before : List (Snapshot Id)) (s : Snapshot Id) (z : Sizes) : Prop where
  all : ∃ d t k, Holds C R s.tree d ∧ TreeAt C R s.tree t ∧
    TreeBytes (fun _ t => (C.encTree t).length) (TreeAt C R) t k ∧
    z.trees = (C.encTree t).length + k ∧ z.chunks = fileBytes d ∧
    z.perFile.map (fun e => (e.1, e.2.1 + e.2.2)) = filesIn [] d
  total : z.introduced + z.reused = z.trees + z.chunks
  introduced : ∀ L : List (Blob Id), L.Nodup →
    (∀ b, b ∈ L ↔ Used C R s.tree b ∧ ∀ s' ∈ before, ¬ Used C R s'.tree b) →
    z.introduced = (L.map (·.data.length)).sum

/-- The same of each snapshot in a list. -/
inductive RightEach (C : Codec Id) (R : Repo Id) : List (Snapshot Id) → List (Snapshot Id) → List Sizes → Prop
  | nil {before} : RightEach C R before [] []
  | cons {before s rest z zs} : Right C R before s z → RightEach C R (before ++ [s]) rest zs →
      RightEach C R before (s :: rest) (z :: zs)

/-- The snapshots can be read and all their trees are stored. -/
def Countable (C : Codec Id) (R : Repo Id) (snaps : List (Snapshot Id)) : Prop :=
  ∀ s ∈ snaps, Readable C R s ∧ TreesStored C R s.tree

/-- What has been visited after some snapshots. -/
structure Visited (C : Codec Id) (R : Repo Id) (before : List (Snapshot Id)) (v : BSet Id) : Prop where
  sorted : BSet.Sorted v
  mem : ∀ x, x ∈ v ↔ ∃ s ∈ before, ∃ b, Used C R s.tree b ∧ b.id = x

theorem one_right (hS : Sound C R) (hm : SizesOf C R sm) {F : Forest Id} {s : Snapshot Id} {d : Dir Bytes}
    (hF : Loaded C R F s.tree d) (hd : Holds C R s.tree d) (hst : TreesStored C R s.tree)
    {before : List (Snapshot Id)} {v : BSet Id} (hv : Visited C R before v) :
    ∃ v' z, forestSizes s.tree F sm v = .ok (v', z) ∧ Right C R before s z ∧ Visited C R (before ++ [s]) v' ∧
      z.introduced + weigh sm v = weigh sm v' := by
  obtain ⟨t, ht, hd'⟩ := hF.held
  have hta := ((hF.exact _ _).mp ht).2
  have hstored : ∀ u t', Reaches (TreeAt C R) s.tree u → TreeAt C R u t' →
      sm.get? u = some (C.encTree t').length := by
    intro u t' hr hu
    obtain ⟨b, hb, rfl, he⟩ := hst u t' hr hu
    rw [hm.known b hb, he]
  obtain ⟨tb, h3, h4⟩ := treeSize_ok hm.chunks (F.length + 1) [] s.tree t d hF.tall ht hd' (by
    intro u hu
    obtain ⟨g1, t', g2⟩ := (reaches_iff hF u).mp hu
    exact ⟨_, hstored u t' g1 ((hF.exact _ _).mp g2).2⟩)
  obtain ⟨⟨v', z⟩, h5, h6⟩ := h4 (v, {}) hv.sorted
  have hw : ∀ u t', Reaches (TreeAt C R) s.tree u → TreeAt C R u t' → sizeIn sm u = (C.encTree t').length := by
    intro u t' hr hu
    unfold sizeIn
    rw [hstored u t' hr hu]; rfl
  have htot : z.introduced + z.reused = z.trees + z.chunks := by
    have e1 := h6.trees; have e2 := h6.chunks; have e3 := h6.total
    simp only at e1 e2 e3
    omega
  have hocc : ∀ x, Occurs (InForest F) s.tree x ↔ ∃ b, Used C R s.tree b ∧ b.id = x := by
    intro x
    rw [← used_iff hS hd hst x]
    unfold Occurs
    constructor
    · rintro ⟨u, t', g1, g2, g3⟩
      exact ⟨u, t', ((reaches_iff hF u).mp g1).1, ((hF.exact _ _).mp g2).2, g3⟩
    · rintro ⟨u, t', g1, g2, g3⟩
      have g4 := (hF.exact _ _).mpr ⟨g1, g2⟩
      exact ⟨u, t', (reaches_iff hF u).mpr ⟨g1, t', g4⟩, g4, g3⟩
  have hfresh : z.introduced + weigh sm v = weigh sm v' := by
    have := h6.fresh
    simp only at this
    omega
  have hmem : ∀ x, x ∈ v' ↔ x ∈ v ∨ ∃ b, Used C R s.tree b ∧ b.id = x := by
    intro x
    rw [← hocc]
    exact h6.mem x
  refine ⟨v', z, ?_, ⟨⟨d, t, tb, hd, hta, ?_, ?_, ?_, ?_⟩, htot, ?_⟩, ⟨h6.sorted, ?_⟩, hfresh⟩
  · simp only [forestSizes, h5]
    rw [if_pos htot.symm]
  · refine treeBytes_mono h3 ?_
    rintro id t' hid ⟨s', ⟨n, md, hs⟩, hr⟩
    have hr' : Reaches (InForest F) s.tree id := .step ht hs hr
    have g := (hF.exact _ _).mp hid
    exact ⟨g.2, hw id t' g.1 g.2⟩
  · have := h6.trees
    simp only at this
    rw [this, hw _ _ .refl hta]; omega
  · have := h6.chunks
    simp only at this
    rw [this, fileBytes_eq]; omega
  · have := h6.files
    simpa using this
  · intro L hL hb
    have := weigh_new hS hm hv.sorted h6.sorted (L := L) hL (fun b h => ((hb b).mp h).1.1) (by
        intro b h hin
        obtain ⟨g1, g2⟩ := (hb b).mp h
        obtain ⟨s', h7, b', h8, h9⟩ := (hv.mem _).mp hin
        have := hS.has_one h8.1 g1.1 h9
        subst this
        exact g2 s' h7 h8) (by
        intro x
        show x ∈ v' ↔ _
        rw [hmem]
        constructor
        · rintro (h | ⟨b, h, rfl⟩)
          · exact .inl h
          · by_cases hin : b.id ∈ v
            · exact .inl hin
            · exact .inr ⟨b, (hb b).mpr ⟨h, fun s' h7 h8 => hin ((hv.mem _).mpr ⟨s', h7, b, h8, rfl⟩)⟩, rfl⟩
        · rintro (h | ⟨b, h, rfl⟩)
          · exact .inl h
          · exact .inr ⟨b, ((hb b).mp h).1, rfl⟩)
    simp only at this
    omega
  · intro x
    show x ∈ v' ↔ _
    rw [hmem, hv.mem]
    constructor
    · rintro (⟨s', h7, h8⟩ | h)
      · exact ⟨s', List.mem_append_left _ h7, h8⟩
      · exact ⟨s, by simp, h⟩
    · rintro ⟨s', h7, h8⟩
      rcases List.mem_append.mp h7 with h | h
      · exact .inl ⟨s', h, h8⟩
      · cases List.mem_singleton.mp h; exact .inr h8

theorem each_right (hS : Sound C R) (ho : Opens R src) (hm : SizesOf C R sm) (snaps : List (Snapshot Id)) :
    ∀ {before : List (Snapshot Id)} {v : BSet Id} {cache : Forest Id} (z0 : Sizes), Visited C R before v →
    CacheOk C R cache → Countable C R snaps →
    ∃ v' zs z, sizesEach C src sm snaps cache v = .ok (v', zs) ∧
      usageLoop C src sm snaps cache v z0 = .ok (v', z) ∧
      RightEach C R before snaps zs ∧ Visited C R (before ++ snaps) v' ∧
      (zs.map Sizes.introduced).sum + weigh sm v = weigh sm v' ∧
      z.introduced = z0.introduced + (zs.map Sizes.introduced).sum ∧
      z.reused = z0.reused + (zs.map Sizes.reused).sum := by
  induction snaps with
  | nil =>
    intro before v cache z0 hv _ _
    exact ⟨v, [], z0, rfl, rfl, .nil, by simpa using hv, by simp, by simp, by simp⟩
  | cons s rest ih =>
    intro before v cache z0 hv hc hcount
    obtain ⟨⟨d, hd⟩, hst⟩ := hcount s (List.mem_cons_self ..)
    obtain ⟨F, cache', h1, hF, hc'⟩ := load_from hS ho hd hc
    obtain ⟨v1, z, h2, h3, h4, h5⟩ := one_right hS hm hF hd hst hv
    obtain ⟨v', zs, z', h6, h7, h8, h9, h10, h11, h12⟩ := ih (z0.add z) h4 hc'
      (fun s' h => hcount s' (List.mem_cons_of_mem _ h))
    refine ⟨v', z :: zs, z', ?_, ?_, .cons h3 h8, by simpa using h9, ?_, ?_, ?_⟩
    · simp only [sizesEach, h1, h2, h6]
    · simp only [usageLoop, h1, h2, h7]
    · rw [List.map_cons, List.sum_cons]; omega
    · rw [h11, List.map_cons, List.sum_cons]; show z0.introduced + z.introduced + _ = _; omega
    · rw [h12, List.map_cons, List.sum_cons]; show z0.reused + z.reused + _ = _; omega

theorem visited_nil : Visited C R [] [] := ⟨BSet.sorted_nil, by simp⟩

theorem sizesEach_known (hS : Sound C R) (ho : Opens R src) (snaps : List (Snapshot Id)) :
    ∀ {v v' : BSet Id} {cache : Forest Id} {zs : List Sizes}, CacheOk C R cache →
    sizesEach C src sm snaps cache v = .ok (v', zs) → (∀ s ∈ snaps, Readable C R s) →
    ∀ s ∈ snaps, ∀ u, Reaches (TreeAt C R) s.tree u → (∃ t, TreeAt C R u t) → ∃ n, sm.get? u = some n := by
  induction snaps with
  | nil => intro _ _ _ _ _ _ _ s hs; cases hs
  | cons s rest ih =>
    intro v v' cache zs hc h hread s' hs' u hr ⟨t, hu⟩
    obtain ⟨d, hd⟩ := hread s (List.mem_cons_self ..)
    obtain ⟨F, cache', h1, hF, hc'⟩ := load_from hS ho hd hc
    simp only [sizesEach, h1] at h
    split at h
    · cases h
    · rename_i v1 z1 h2
      split at h
      · cases h
      · rename_i v2 zs2 h3
        rcases List.mem_cons.mp hs' with rfl | hs'
        · unfold forestSizes at h2
          split at h2
          · cases h2
          · rename_i v3 z3 h4
            exact treeSize_known ((reaches_iff hF u).mpr ⟨hr, t, (hF.exact _ _).mpr ⟨hr, hu⟩⟩) h4
        · exact ih hc' h3 (fun s h => hread s (List.mem_cons_of_mem _ h)) s' hs' u hr ⟨t, hu⟩

/-- No stored blob hashes like the empty tree but the empty tree's bytes. -/
def EmptyOwn (C : Codec Id) (R : Repo Id) : Prop := ∀ b, Has C R b → b.id = C.emptyId → b.data = C.encTree []

/-- When sizes are computed, all trees are stored. -/
theorem countable_of_ok (hH : Healthy C ids R) (ho : Opens R src) (hE : EmptyOwn C R) {snaps : List (Snapshot Id)}
    (hs : ∀ s ∈ snaps, Readable C R s) {zs : List Sizes} (h : snapshotsSizes C src snaps = .ok zs) :
    Countable C R snaps := by
  obtain ⟨sm, h1, hm⟩ := sizes_of hH.sound ho
  simp only [snapshotsSizes, h1] at h
  split at h
  · cases h
  · rename_i v' zs' h2
    refine fun s hs' => ⟨hs s hs', fun u t hr hu => ?_⟩
    obtain ⟨n, hn⟩ := sizesEach_known hH.sound ho snaps newTreeCache_ok h2 hs s hs' u hr ⟨t, hu⟩
    obtain ⟨b, hb, rfl⟩ := hm.stored u n hn
    rcases hu.2.2 with rfl | hb'
    · exact ⟨b, hb, rfl, hE b hb hu.2.1.symm⟩
    · exact ⟨_, hb', rfl, rfl⟩

theorem countable_ok (hH : Healthy C ids R) (ho : Opens R src) {snaps : List (Snapshot Id)}
    (hs : Countable C R snaps) :
    ∃ zs, snapshotsSizes C src snaps = .ok zs ∧ RightEach C R [] snaps zs ∧
      ∀ L : List (Blob Id), L.Nodup → (∀ b, b ∈ L ↔ ∃ s ∈ snaps, Used C R s.tree b) →
        (zs.map Sizes.introduced).sum = (L.map (·.data.length)).sum := by
  obtain ⟨sm, h1, hm⟩ := sizes_of hH.sound ho
  obtain ⟨v', zs, z, h2, _, h3, h4, h5, _⟩ := each_right hH.sound ho hm snaps {} (visited_nil (C := C) (R := R))
    newTreeCache_ok hs
  refine ⟨zs, by simp only [snapshotsSizes, h1, h2], h3, fun L hL hb => ?_⟩
  have := weigh_new hH.sound hm (v := []) (v' := v') (L := L) BSet.sorted_nil h4.sorted hL
    (fun b h => by obtain ⟨s, _, g⟩ := (hb b).mp h; exact g.1) (by simp) (by
      intro x
      rw [h4.mem]
      simp only [List.nil_append, List.not_mem_nil, false_or]
      constructor
      · rintro ⟨s, g1, b, g2, g3⟩; exact ⟨b, (hb b).mpr ⟨s, g1, g2⟩, g3⟩
      · rintro ⟨b, g1, g3⟩
        obtain ⟨s, g1, g2⟩ := (hb b).mp g1
        exact ⟨s, g1, b, g2, g3⟩)
  simp only [weigh, List.map_nil, List.sum_nil] at this h5
  omega

/-- Whenever sizes of snapshots are shown, in whatever order: all are right, and the bytes
introduced by all of them are the size of all blobs that any of them uses. (Sizes are shown unless
there is an empty directory: C35.) -/
theorem sizes (hH : Healthy C ids R) (ho : Opens R src) (hE : EmptyOwn C R) {snaps : List (Snapshot Id)}
    (hs : ∀ s ∈ snaps, Readable C R s) {zs : List Sizes} (h : snapshotsSizes C src snaps = .ok zs) :
    RightEach C R [] snaps zs ∧
      ∀ L : List (Blob Id), L.Nodup → (∀ b, b ∈ L ↔ ∃ s ∈ snaps, Used C R s.tree b) →
        (zs.map Sizes.introduced).sum = (L.map (·.data.length)).sum := by
  obtain ⟨zs', h1, h2⟩ := countable_ok hH ho (countable_of_ok hH ho hE hs h)
  rw [h] at h1
  cases h1
  exact h2

theorem totals {before snaps : List (Snapshot Id)} {zs : List Sizes} (h : RightEach C R before snaps zs) :
    (zs.map Sizes.introduced).sum + (zs.map Sizes.reused).sum = (zs.map (fun z => z.trees + z.chunks)).sum := by
  induction h with
  | nil => rfl
  | cons hz _ ih =>
    have hz := hz.total
    simp only [List.map_cons, List.sum_cons]
    omega

/-- The size of everything listed, as the sum over a list of IDs. -/
theorem packed_eq (x : Index Id) (hsm : Index.blobToSize x = .ok sm) :
    packedSize x = ((blobsListed x.packs).map (sizeIn sm)).sum := by
  have key : ∀ ps : List (Id × Manifest Id), (∀ e ∈ ps, e ∈ x.packs) →
      (ps.map fun e => (e.2.map Entry.length).sum).sum = ((blobsListed ps).map (sizeIn sm)).sum := by
    intro ps
    induction ps with
    | nil => intro _; rfl
    | cons e ps ih =>
      intro h
      have h1 : (e.2.map Entry.id).map (sizeIn sm) = e.2.map Entry.length := by
        rw [List.map_map]
        refine List.map_congr_left (fun y hy => ?_)
        show sizeIn sm y.id = _
        unfold sizeIn
        rw [(C18.size_iff x sm hsm y.id y.length).mpr ⟨e.1, e.2, y, h e (List.mem_cons_self ..), hy, rfl, rfl⟩]
        rfl
      have h2 := ih (fun e' he => h e' (List.mem_cons_of_mem _ he))
      unfold blobsListed at h2 ⊢
      rw [List.map_cons, List.sum_cons, List.flatMap_cons, List.map_append, List.sum_append, h1, h2]
  exact key x.packs (fun _ h => h)

/-- `usage` shows as unique the size of all blobs that any snapshot uses, and as unused the size of
all blobs that none does. All that is in packs is one or the other. -/
theorem countable_usage (hH : Healthy C ids R) (ho : Opens R src) {snaps : List (Snapshot Id)}
    (hs : Countable C R snaps) :
    ∃ z zs, usage C src snaps = .ok z ∧ snapshotsSizes C src snaps = .ok zs ∧
      z.unique + z.reused = (zs.map (fun z => z.trees + z.chunks)).sum ∧
      (∀ L : List (Blob Id), L.Nodup → (∀ b, b ∈ L ↔ ∃ s ∈ snaps, Used C R s.tree b) →
        z.unique = (L.map (·.data.length)).sum) ∧
      ∀ L : List (Blob Id), L.Nodup → (∀ b, b ∈ L ↔ Has C R b ∧ ∀ s ∈ snaps, ¬ Used C R s.tree b) →
        z.unused = (L.map (·.data.length)).sum ∧ z.packed = z.unique + z.unused := by
  obtain ⟨zs, h0, hright, h00⟩ := countable_ok hH ho hs
  obtain ⟨sm, h1, hm⟩ := sizes_of hH.sound ho
  obtain ⟨v', zs', z, h2, h2', h3, h4, h5, h6, h7⟩ := each_right hH.sound ho hm snaps {}
    (visited_nil (C := C) (R := R)) newTreeCache_ok hs
  have : zs' = zs := by
    simp only [snapshotsSizes, h1, h2] at h0
    exact Except.ok.inj h0
  subst this
  have hi : z.introduced = (zs'.map Sizes.introduced).sum := by rw [h6]; show 0 + _ = _; omega
  have hr : z.reused = (zs'.map Sizes.reused).sum := by rw [h7]; show 0 + _ = _; omega
  refine ⟨⟨z.introduced, z.reused, packedSize src.index, packedSize src.index - z.introduced⟩, zs', ?_, h0, ?_, ?_, ?_⟩
  · simp only [usage, h1, h2']
  · show z.introduced + z.reused = _
    rw [hi, hr]
    exact totals hright
  · intro L hL hb
    show z.introduced = _
    rw [hi]
    exact h00 L hL hb
  · intro L hL hb
    show packedSize src.index - z.introduced = _ ∧ packedSize src.index = z.introduced + (packedSize src.index - z.introduced)
    have hnd : (blobsListed src.index.packs).Nodup := (C18.refused_iff src.index).1.mp ⟨_, ho.blobMap⟩
    have hv : v'.Nodup := h4.sorted.imp (fun h => ne_of_lt h)
    have hLi : (L.map Blob.id).Nodup := by
      refine List.Nodup.map_on ?_ hL
      intro a ha b hb' hab
      exact hH.sound.has_one ((hb a).mp ha).1 ((hb b).mp hb').1 hab
    have hlist : ∀ x, x ∈ blobsListed src.index.packs ↔ ∃ b, Has C R b ∧ b.id = x := by
      intro x
      constructor
      · intro hx
        obtain ⟨⟨p, m⟩, g1, g2⟩ := List.mem_flatMap.mp hx
        obtain ⟨e, g2, g3⟩ := List.mem_map.mp g2
        exact hm.stored x e.length ((C18.size_iff _ _ h1 x _).mpr ⟨p, m, e, g1, g2, g3, rfl⟩)
      · rintro ⟨b, hb', rfl⟩
        obtain ⟨p, m, e, g1, g2, g3, _⟩ := (C18.size_iff _ _ h1 _ _).mp (hm.known b hb')
        exact List.mem_flatMap.mpr ⟨(p, m), g1, List.mem_map.mpr ⟨e, g2, g3⟩⟩
    have hp : (blobsListed src.index.packs).Perm (v' ++ L.map Blob.id) := by
      refine (List.perm_ext_iff_of_nodup hnd ?_).mpr ?_
      · rw [List.nodup_append]
        refine ⟨hv, hLi, ?_⟩
        rintro a ha b hb' rfl
        obtain ⟨c, hc, rfl⟩ := List.mem_map.mp hb'
        obtain ⟨s, g1, b, g2, g3⟩ := (h4.mem _).mp ha
        have := hH.sound.has_one g2.1 ((hb c).mp hc).1 g3
        subst this
        exact ((hb b).mp hc).2 s (by simpa using g1) g2
      · intro x
        rw [hlist, List.mem_append, h4.mem, List.mem_map]
        simp only [List.nil_append]
        constructor
        · rintro ⟨b, hb', rfl⟩
          by_cases hu : ∃ s ∈ snaps, Used C R s.tree b
          · obtain ⟨s, g1, g2⟩ := hu
            exact .inl ⟨s, g1, b, g2, rfl⟩
          · exact .inr ⟨b, (hb b).mpr ⟨hb', fun s g1 g2 => hu ⟨s, g1, g2⟩⟩, rfl⟩
        · rintro (⟨s, _, b, g2, rfl⟩ | ⟨b, g1, rfl⟩)
          · exact ⟨b, g2.1, rfl⟩
          · exact ⟨b, ((hb b).mp g1).1, rfl⟩
    have hw : packedSize src.index = weigh sm v' + (L.map (·.data.length)).sum := by
      rw [packed_eq src.index h1, (hp.map _).sum_eq, List.map_append, List.sum_append, List.map_map]
      congr 2
      refine List.map_congr_left (fun b hb' => ?_)
      show sizeIn sm b.id = _
      unfold sizeIn
      rw [hm.known b ((hb b).mp hb').1]; rfl
    have hz : z.introduced = weigh sm v' := by
      simp only [weigh, List.map_nil, List.sum_nil] at h5 ⊢
      omega
    rw [hw, hz]; omega

/-- `usage` and `snapshots --sizes` work on the same snapshots. -/
theorem usage_iff (hH : Healthy C ids R) (ho : Opens R src) (hE : EmptyOwn C R) {snaps : List (Snapshot Id)}
    (hs : ∀ s ∈ snaps, Readable C R s) : (∃ z, usage C src snaps = .ok z) ↔ ∃ zs, snapshotsSizes C src snaps = .ok zs := by
  obtain ⟨sm, h1, hm⟩ := sizes_of hH.sound ho
  have key : ∀ (snaps : List (Snapshot Id)) (cache : Forest Id) (v : BSet Id) (z : Sizes),
      (∃ r, usageLoop C src sm snaps cache v z = .ok r) ↔ ∃ r, sizesEach C src sm snaps cache v = .ok r := by
    intro snaps
    induction snaps with
    | nil => intro _ _ _; exact ⟨fun _ => ⟨_, rfl⟩, fun _ => ⟨_, rfl⟩⟩
    | cons s rest ih =>
      intro cache v z
      unfold usageLoop sizesEach
      cases forestFromRoot C src s.tree cache with
      | error e => simp
      | ok r =>
        simp only
        cases forestSizes s.tree r.1 sm v with
        | error e => simp
        | ok r' =>
          simp only
          rw [ih]
          cases sizesEach C src sm rest r.2 r'.1 with
          | error e => simp
          | ok _ => simp
  unfold usage snapshotsSizes
  simp only [h1]
  have := key snaps (newTreeCache C) [] {}
  cases h2 : usageLoop C src sm snaps (newTreeCache C) [] {} <;>
    cases h3 : sizesEach C src sm snaps (newTreeCache C) [] <;> simp [h2, h3] at this ⊢

/-- Whenever `usage` shows anything, it shows as unique the size of all blobs that any snapshot
uses, and as unused the size of all blobs that none does. All that is in packs is one or the other. -/
theorem usage_right (hH : Healthy C ids R) (ho : Opens R src) (hE : EmptyOwn C R) {snaps : List (Snapshot Id)}
    (hs : ∀ s ∈ snaps, Readable C R s) {z : Usage} (h : usage C src snaps = .ok z) :
    (∃ zs, snapshotsSizes C src snaps = .ok zs ∧
      z.unique + z.reused = (zs.map (fun z => z.trees + z.chunks)).sum) ∧
    (∀ L : List (Blob Id), L.Nodup → (∀ b, b ∈ L ↔ ∃ s ∈ snaps, Used C R s.tree b) →
      z.unique = (L.map (·.data.length)).sum) ∧
    ∀ L : List (Blob Id), L.Nodup → (∀ b, b ∈ L ↔ Has C R b ∧ ∀ s ∈ snaps, ¬ Used C R s.tree b) →
      z.unused = (L.map (·.data.length)).sum ∧ z.packed = z.unique + z.unused := by
  obtain ⟨zs, hzs⟩ := (usage_iff hH ho hE hs).mp ⟨z, h⟩
  obtain ⟨z', zs', h1, h2, h3, h4, h5⟩ := countable_usage hH ho (countable_of_ok hH ho hE hs hzs)
  rw [h] at h1
  cases h1
  exact ⟨⟨zs', h2, h3⟩, h4, h5⟩

/-! ## Example -/

theorem emptyOwn_of {R : Repo ObjectId} (h : ∀ b ∈ Check.blobs R, b.id ≠ Demo.codec.emptyId) :
    EmptyOwn Demo.codec R := by
  intro b hb he
  exact absurd he (h b (Check.has_iff.mp hb).2)

/-- Two snapshots sharing nothing. -/
example : Healthy Demo.codec Demo.pruneIds Demo.repoAB ∧ Opens Demo.repoAB (Check.opened Demo.repoAB) ∧
    EmptyOwn Demo.codec Demo.repoAB ∧
    (∀ s ∈ [Demo.snapA, Demo.snapB, Demo.snapA], Readable Demo.codec Demo.repoAB s) ∧
    (snapshotsSizes Demo.codec (Check.opened Demo.repoAB) [Demo.snapA, Demo.snapB, Demo.snapA]).isOk = true := by
  refine ⟨Demo.healthyAB, Check.opened_opens Demo.healthyAB, emptyOwn_of (by decide +kernel), ?_, by decide +kernel⟩
  intro s hs
  simp only [List.mem_cons, List.not_mem_nil, or_false] at hs
  have hA : Readable Demo.codec Demo.repoAB Demo.snapA :=
    Demo.healthyAB.readable (Demo.pruneIds.snapId Demo.snapA) Demo.snapA (by decide +kernel)
  have hB : Readable Demo.codec Demo.repoAB Demo.snapB :=
    Demo.healthyAB.readable (Demo.pruneIds.snapId Demo.snapB) Demo.snapB (by decide +kernel)
  rcases hs with rfl | rfl | rfl
  exacts [hA, hB, hA]

/-- The second time round a snapshot introduces nothing. -/
theorem example_sizes : (snapshotsSizes Demo.codec (Check.opened Demo.repoAB)
    [Demo.snapA, Demo.snapB, Demo.snapA]).toOption.map (fun zs => zs.map fun z => (z.chunks, z.introduced == 0,
      z.perFile.map Prod.snd)) =
    some [(3, false, [(3, 0)]), (1, false, [(1, 0)]), (3, true, [(0, 3)])] := by
  decide +kernel

end Backpak.C34
