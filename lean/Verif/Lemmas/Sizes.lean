import Verif.Model.Sizes
import Verif.Spec.Sizes
import Verif.Lemmas.Path

/-!
# Size accounting
-/

namespace Backpak

open Spec

variable {Id : Type} [LinearOrder Id] {F : Forest Id} {sm : BMap Id Nat}

/-- The size of a blob. -/
def sizeIn (sm : BMap Id Nat) (id : Id) : Nat := (sm.get? id).getD 0

/-- The size of a set of blobs. -/
def weigh (sm : BMap Id Nat) (v : BSet Id) : Nat := (v.map (sizeIn sm)).sum

theorem weigh_insert (v : BSet Id) (c : Id) (h : c ∉ v) :
    weigh sm (BSet.insert c v) = sizeIn sm c + weigh sm v := by
  induction v with
  | nil => simp [BSet.insert, weigh]
  | cons a v ih =>
    have hne : c ≠ a := fun he => h (he ▸ List.mem_cons_self ..)
    have := ih (fun hm => h (List.mem_cons_of_mem _ hm))
    unfold weigh at this ⊢
    unfold BSet.insert
    split
    · simp
    · simp only [List.map_cons, List.sum_cons, this]
      omega

/-- What counting blobs does to the state: the blobs `X` are visited, which are `tb` bytes of trees
and `cb` bytes of chunks, repeats included, in the files `fl`. -/
structure Counted (sm : BMap Id Nat) (X : Id → Prop) (tb : Nat) (fl : List (Path × Nat))
    (st st' : BSet Id × Sizes) : Prop where
  sorted : BSet.Sorted st'.1
  mem : ∀ x, x ∈ st'.1 ↔ x ∈ st.1 ∨ X x
  trees : st'.2.trees = st.2.trees + tb
  chunks : st'.2.chunks = st.2.chunks + (fl.map Prod.snd).sum
  total : st'.2.introduced + st'.2.reused = st.2.introduced + st.2.reused + tb + (fl.map Prod.snd).sum
  fresh : st'.2.introduced + weigh sm st.1 = st.2.introduced + weigh sm st'.1
  files : st'.2.perFile.map (fun e => (e.1, e.2.1 + e.2.2)) =
    st.2.perFile.map (fun e => (e.1, e.2.1 + e.2.2)) ++ fl

theorem Counted.refl {st : BSet Id × Sizes} (h : BSet.Sorted st.1) : Counted sm (fun _ => False) 0 [] st st :=
  ⟨h, by simp, rfl, rfl, rfl, rfl, by simp⟩

theorem Counted.trans {X Y : Id → Prop} {a b : Nat} {f g : List (Path × Nat)} {s1 s2 s3 : BSet Id × Sizes}
    (h1 : Counted sm X a f s1 s2) (h2 : Counted sm Y b g s2 s3) :
    Counted sm (fun x => X x ∨ Y x) (a + b) (f ++ g) s1 s3 := by
  refine ⟨h2.sorted, ?_, ?_, ?_, ?_, ?_, ?_⟩
  · intro x; rw [h2.mem, h1.mem, or_assoc]
  · rw [h2.trees, h1.trees]; omega
  · rw [h2.chunks, h1.chunks, List.map_append, List.sum_append]; omega
  · rw [h2.total, h1.total, List.map_append, List.sum_append]; omega
  · have := h1.fresh; have := h2.fresh; omega
  · rw [h2.files, h1.files, List.append_assoc]

theorem Counted.congr {X Y : Id → Prop} {a : Nat} {f : List (Path × Nat)} {s1 s2 : BSet Id × Sizes}
    (h : Counted sm X a f s1 s2) (hXY : ∀ x, X x ↔ Y x) : Counted sm Y a f s1 s2 :=
  ⟨h.sorted, fun x => by rw [h.mem, hXY], h.trees, h.chunks, h.total, h.fresh, h.files⟩

theorem chunkSizes_ok (cs : List Id) : ∀ (v : BSet Id) (i r : Nat), BSet.Sorted v →
    (∀ c ∈ cs, ∃ n, sm.get? c = some n) →
    ∃ v' i' r', chunkSizes sm cs (v, i, r) = .ok (v', i', r') ∧ BSet.Sorted v' ∧
      (∀ x, x ∈ v' ↔ x ∈ v ∨ x ∈ cs) ∧ i' + r' = i + r + (cs.map (sizeIn sm)).sum ∧
      i' + weigh sm v = i + weigh sm v' := by
  induction cs with
  | nil => intro v i r hv _; exact ⟨v, i, r, rfl, hv, by simp, by simp, rfl⟩
  | cons c cs ih =>
    intro v i r hv hsm
    obtain ⟨n, hn⟩ := hsm c (List.mem_cons_self ..)
    have hn' : sizeIn sm c = n := by simp [sizeIn, hn]
    have hsm' : ∀ c ∈ cs, ∃ n, sm.get? c = some n := fun c h => hsm c (List.mem_cons_of_mem _ h)
    by_cases hc : c ∈ v
    · obtain ⟨v', i', r', h1, h2, h3, h4, h5⟩ := ih v i (r + n) hv hsm'
      refine ⟨v', i', r', by simp only [chunkSizes, hn, if_pos hc, h1], h2, ?_, ?_, h5⟩
      · intro x
        rw [h3, List.mem_cons]
        constructor
        · rintro (h | h); exacts [.inl h, .inr (.inr h)]
        · rintro (h | rfl | h); exacts [.inl h, .inl hc, .inr h]
      · rw [h4, List.map_cons, List.sum_cons, hn']; omega
    · obtain ⟨v', i', r', h1, h2, h3, h4, h5⟩ := ih (BSet.insert c v) (i + n) r (BSet.sorted_insert hv c) hsm'
      refine ⟨v', i', r', by simp only [chunkSizes, hn, if_neg hc, h1], h2, ?_, ?_, ?_⟩
      · intro x
        rw [h3, List.mem_cons, BSet.mem_insert]
        constructor
        · rintro ((h | h) | h); exacts [.inr (.inl h), .inl h, .inr (.inr h)]
        · rintro (h | h | h); exacts [.inl (.inr h), .inl (.inl h), .inr h]
      · rw [h4, List.map_cons, List.sum_cons, hn']; omega
      · rw [weigh_insert v c hc, hn'] at h5; omega

/-- Blobs found below a tree. -/
def Occurs (T : Id → Tree Id → Prop) (id x : Id) : Prop :=
  ∃ u t, Reaches T id u ∧ T u t ∧ (x = u ∨ x ∈ chunksInTree t)

/-- Blobs found at or below the nodes of a tree. -/
def OccursIn (T : Id → Tree Id → Prop) (t : Tree Id) (x : Id) : Prop :=
  x ∈ chunksInTree t ∨ ∃ s, Sub t s ∧ Occurs T s x

omit [LinearOrder Id] in
theorem occurs_iff {T : Id → Tree Id → Prop} (hone : ∀ id t t', T id t → T id t' → t = t') {id : Id}
    {t : Tree Id} (ht : T id t) (x : Id) : Occurs T id x ↔ x = id ∨ OccursIn T t x := by
  constructor
  · rintro ⟨u, t', hr, hu, hx⟩
    cases hr with
    | refl =>
      have := hone _ _ _ hu ht
      subst this
      rcases hx with h | h
      · exact .inl h
      · exact .inr (.inl h)
    | step h1 h2 h3 =>
      have := hone _ _ _ h1 ht
      subst this
      exact .inr (.inr ⟨_, ⟨_, _, h2⟩, u, t', h3, hu, hx⟩)
  · rintro (rfl | h | ⟨s, ⟨n, md, hs⟩, u, t', hr, hu, hx⟩)
    · exact ⟨x, t, .refl, ht, .inl rfl⟩
    · exact ⟨id, t, .refl, ht, .inr h⟩
    · exact ⟨u, t', .step ht hs hr, hu, hx⟩

omit [LinearOrder Id] in
theorem occursIn_cons {T : Id → Tree Id → Prop} {n : Name} {y : Node Id} {t : Tree Id} (x : Id) :
    OccursIn T ((n, y) :: t) x ↔
      (x ∈ chunksInNode y ∨ ∃ s md, y = ⟨.dir s, md⟩ ∧ Occurs T s x) ∨ OccursIn T t x := by
  unfold OccursIn chunksInTree Sub
  simp only [List.flatMap_cons, List.mem_append, List.mem_cons]
  constructor
  · rintro ((h | h) | ⟨s, ⟨m, md, h | h⟩, hx⟩)
    · exact .inl (.inl h)
    · exact .inr (.inl h)
    · cases h; exact .inl (.inr ⟨s, md, rfl, hx⟩)
    · exact .inr (.inr ⟨s, ⟨m, md, h⟩, hx⟩)
  · rintro ((h | ⟨s, md, rfl, hx⟩) | h | ⟨s, ⟨m, md, h⟩, hx⟩)
    · exact .inl (.inl h)
    · exact .inr ⟨s, ⟨n, md, .inl rfl⟩, hx⟩
    · exact .inl (.inr h)
    · exact .inr ⟨s, ⟨m, md, .inr h⟩, hx⟩

variable {PF : List Id → Bytes → Prop}

/-- The sizes of a file's chunks are known and come to the size of the file. -/
def ChunksSized (sm : BMap Id Nat) (PF : List Id → Bytes → Prop) : Prop :=
  ∀ cs x, PF cs x → (∀ c ∈ cs, ∃ n, sm.get? c = some n) ∧ (cs.map (sizeIn sm)).sum = x.length

theorem nodeSizes_ok (hPF : ChunksSized sm PF) {down : Path → Id → BSet Id × Sizes → Res (BSet Id × Sizes)}
    {path : Path} {t : Tree Id} {d : Dir Bytes} (h : HeldIn PF F t d)
    (hdown : ∀ n id md t' sub, (n, (⟨.dir id, md⟩ : Node Id)) ∈ t → F.get? id = some t' → HeldIn PF F t' sub →
      ∃ tb, TreeBytes (fun i _ => sizeIn sm i) (InForest F) t' tb ∧ ∀ st, BSet.Sorted st.1 →
        ∃ st', down (path ++ [n]) id st = .ok st' ∧
          Counted sm (Occurs (InForest F) id) (sizeIn sm id + tb) (filesIn (path ++ [n]) sub) st st') :
    ∃ tb, TreeBytes (fun i _ => sizeIn sm i) (InForest F) t tb ∧ ∀ st, BSet.Sorted st.1 →
      ∃ st', nodeSizes sm down path t st = .ok st' ∧
        Counted sm (OccursIn (InForest F) t) tb (filesIn path d) st st' := by
  unfold HeldIn at h
  induction h with
  | nil =>
    refine ⟨0, .nil, fun st hst => ⟨st, rfl, (Counted.refl hst).congr ?_⟩⟩
    intro x; simp [OccursIn, chunksInTree, Sub]
  | @file n cs md t x d hx _ ih =>
    obtain ⟨tb, h1, h2⟩ := ih (fun m id md' t' sub hm => hdown m id md' t' sub (List.mem_cons_of_mem _ hm))
    refine ⟨tb, .file h1, fun st hst => ?_⟩
    obtain ⟨g1, g2⟩ := hPF cs x hx
    obtain ⟨v', i', r', h3, h4, h5, h6, h7⟩ := chunkSizes_ok cs st.1 0 0 hst g1
    have hc : Counted sm (fun y => y ∈ cs) 0 [(path ++ [n], x.length)] st
        (v', { st.2 with introduced := st.2.introduced + i', reused := st.2.reused + r',
                         chunks := st.2.chunks + (i' + r'),
                         perFile := st.2.perFile ++ [(path ++ [n], (i', r'))] }) := by
      refine ⟨h4, h5, rfl, ?_, ?_, ?_, ?_⟩
      · simp only [List.map_cons, List.map_nil, List.sum_cons, List.sum_nil]; omega
      · simp only [List.map_cons, List.map_nil, List.sum_cons, List.sum_nil]; omega
      · simp only; omega
      · simp only [List.map_append, List.map_cons, List.map_nil]
        congr 3; omega
    obtain ⟨st', h8, h9⟩ := h2 _ hc.sorted
    refine ⟨st', ?_, ?_⟩
    · simp only [nodeSizes, nodeSize, h3, h8]
    · have := hc.trans h9
      rw [Nat.zero_add] at this
      refine this.congr ?_
      intro y
      rw [occursIn_cons]
      simp only [chunksInNode]
      constructor
      · rintro (h | h); exacts [.inl (.inl h), .inr h]
      · rintro ((h | ⟨_, _, h, _⟩) | h)
        · exact .inl h
        · cases h
        · exact .inr h
  | @link n tgt md t d _ ih =>
    obtain ⟨tb, h1, h2⟩ := ih (fun m id md' t' sub hm => hdown m id md' t' sub (List.mem_cons_of_mem _ hm))
    refine ⟨tb, .link h1, fun st hst => ?_⟩
    obtain ⟨st', h8, h9⟩ := h2 st hst
    refine ⟨st', by simp only [nodeSizes, nodeSize, h8], h9.congr ?_⟩
    intro y
    rw [occursIn_cons]
    simp only [chunksInNode]
    constructor
    · exact .inr
    · rintro ((h | ⟨_, _, h, _⟩) | h)
      · cases h
      · cases h
      · exact h
  | @dir n id md t t' sub d hid hsub _ _ ih =>
    obtain ⟨tb, h1, h2⟩ := ih (fun m id md' t' sub hm => hdown m id md' t' sub (List.mem_cons_of_mem _ hm))
    obtain ⟨tb', h3, h4⟩ := hdown n id md t' sub (List.mem_cons_self ..) hid hsub
    refine ⟨_, .dir hid h3 h1, fun st hst => ?_⟩
    obtain ⟨st1, h5, h6⟩ := h4 st hst
    obtain ⟨st', h8, h9⟩ := h2 st1 h6.sorted
    refine ⟨st', by simp only [nodeSizes, nodeSize, h5, h8], (h6.trans h9).congr ?_⟩
    intro y
    rw [occursIn_cons]
    simp only [chunksInNode]
    constructor
    · rintro (h | h); exacts [.inl (.inr ⟨id, md, rfl, h⟩), .inr h]
    · rintro ((h | ⟨_, _, h, h'⟩) | h)
      · cases h
      · cases h; exact .inl h'
      · exact .inr h

theorem countTree_ok (id : Id) (n : Nat) (h : sm.get? id = some n) (st : BSet Id × Sizes) (hst : BSet.Sorted st.1) :
    Counted sm (fun x => x = id) n [] st (countTree id n st) := by
  have hn : sizeIn sm id = n := by simp [sizeIn, h]
  unfold countTree
  split
  · rename_i hm
    refine ⟨hst, ?_, rfl, rfl, ?_, rfl, by simp⟩
    · intro x
      constructor
      · exact .inl
      · rintro (h | rfl); exacts [h, hm]
    · simp; omega
  · rename_i hm
    refine ⟨BSet.sorted_insert hst id, ?_, rfl, rfl, ?_, ?_, by simp⟩
    · intro x; rw [BSet.mem_insert]; exact or_comm
    · simp; omega
    · simp only [weigh_insert st.1 id hm, hn]; omega

/-- Sizes of what is below a tree, when the sizes of all trees are known. -/
theorem treeSize_ok (hPF : ChunksSized sm PF) (k : Nat) : ∀ (path : Path) (id : Id) (t : Tree Id) (d : Dir Bytes),
    Tall (InForest F) k id → F.get? id = some t → HeldIn PF F t d →
    (∀ u, Reaches (InForest F) id u → ∃ n, sm.get? u = some n) →
    ∃ tb, TreeBytes (fun i _ => sizeIn sm i) (InForest F) t tb ∧ ∀ st, BSet.Sorted st.1 →
      ∃ st', treeSize F sm k path id st = .ok st' ∧
        Counted sm (Occurs (InForest F) id) (sizeIn sm id + tb) (filesIn path d) st st' := by
  induction k with
  | zero => intro _ _ _ _ h; exact h.elim
  | succ k ih =>
    rintro path id t d ⟨t0, ht0, hsub⟩ ht hd hsm
    have := InForest.one ht0 ht
    subst this
    obtain ⟨tb, h1, h2⟩ := nodeSizes_ok (F := F) (sm := sm) hPF (down := treeSize F sm k) (path := path) hd
      (fun n s md t' sub hm ht' hs' => ih _ s t' sub (hsub s ⟨n, md, hm⟩) ht' hs'
        (fun u hu => hsm u (.step ht0 hm hu)))
    refine ⟨tb, h1, fun st hst => ?_⟩
    obtain ⟨n, hn⟩ := hsm id .refl
    have hc := countTree_ok id n hn st hst
    obtain ⟨st', h3, h4⟩ := h2 _ hc.sorted
    refine ⟨st', ?_, ?_⟩
    · have ht' : F.get? id = some t0 := ht
      simp only [treeSize, ht', hn, h3]
    · have hn' : sizeIn sm id = n := by simp [sizeIn, hn]
      rw [hn']
      have := hc.trans h4
      rw [List.nil_append] at this
      refine this.congr (fun x => ?_)
      rw [occurs_iff (T := InForest F) (fun _ _ _ => InForest.one) ht0]

theorem nodeSizes_down {down : Path → Id → BSet Id × Sizes → Res (BSet Id × Sizes)} {path : Path} (t : Tree Id) :
    ∀ {st st' : BSet Id × Sizes}, nodeSizes sm down path t st = .ok st' → ∀ s, Sub t s →
      ∃ p st1 st2, down p s st1 = .ok st2 := by
  induction t with
  | nil => rintro st st' _ s ⟨n, md, h⟩; cases h
  | cons e t ih =>
    obtain ⟨n, x⟩ := e
    rintro st st' h s ⟨m, md, hm⟩
    unfold nodeSizes at h
    split at h
    · cases h
    · rename_i st1 h1
      rcases List.mem_cons.mp hm with he | hm
      · cases he
        exact ⟨_, _, _, h1⟩
      · exact ih h s ⟨m, md, hm⟩

/-- When it succeeds, the sizes of all trees are known. -/
theorem treeSize_known {id u : Id} (hr : Reaches (InForest F) id u) : ∀ {k : Nat} {path : Path}
    {st st' : BSet Id × Sizes}, treeSize F sm k path id st = .ok st' → ∃ n, sm.get? u = some n := by
  induction hr with
  | refl =>
    intro k path st st' h
    cases k with
    | zero => simp [treeSize] at h
    | succ k =>
      unfold treeSize at h
      split at h
      · cases h
      · split at h
        · cases h
        · rename_i n hn; exact ⟨n, hn⟩
  | step h1 h2 _ ih =>
    intro k path st st' h
    cases k with
    | zero => simp [treeSize] at h
    | succ k =>
      unfold treeSize at h
      split at h
      · cases h
      · rename_i t ht
        have := InForest.one h1 ht
        subst this
        split at h
        · cases h
        · obtain ⟨p, st1, st2, h3⟩ := nodeSizes_down _ h _ ⟨_, _, h2⟩
          exact ih h3

theorem fileBytes_eq (p : Path) (d : Dir Bytes) : ((filesIn p d).map Prod.snd).sum = fileBytes d := by
  induction d generalizing p with
  | nil => rfl
  | leaf n md l rest ih => cases l <;> simp [filesIn, fileBytes, ih]
  | dir n md sub rest ih1 ih2 => simp [filesIn, fileBytes, ih1, ih2]

end Backpak
