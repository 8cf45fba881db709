import Verif.Spec.TreeId
import Verif.Lemmas.Since
import Verif.Lemmas.Backup
import Verif.Lemmas.FilterSame
import Verif.Lemmas.Listing
import Verif.Lemmas.RoundTrip

/-!
# Facts about IDs of file trees
-/

namespace Backpak.TreeId

open Spec Pipeline

variable {Id : Type} {C : Codec Id} {cut : Bytes → Nat}

/-- Nodes that stand for a file tree, with files cut by the chunker and subdirectories known by their
hash, are its nodes. -/
theorem rel_treeOf {PF : List Id → Bytes → Prop} {PT : Id → Tree Id → Prop}
    (hf : ∀ cs x, PF cs x → cs = (Chunk.chunkFile C.hash cut x).map Blob.id)
    (ht : ∀ id t, PT id t → C.hash (C.encTree t) = id) {t : Tree Id} {d : Dir Bytes} (h : DirRel PF PT t d) :
    t = treeOf C cut d := by
  induction h with
  | nil => rfl
  | file h1 _ ih => rw [treeOf, ← hf _ _ h1, ← ih]
  | link _ ih => rw [treeOf, ← ih]
  | dir h1 _ _ ih1 ih2 => rw [treeOf, ← ih1, ← ih2, ht _ _ h1]

/-- Such trees have no special files. -/
theorem rel_plain {PF : List Id → Bytes → Prop} {PT : Id → Tree Id → Prop} {t : Tree Id} {d : Dir Bytes}
    (h : DirRel PF PT t d) : Plain d := by
  induction h with
  | nil => trivial
  | file _ _ ih => exact ⟨by simp, ih⟩
  | link _ ih => exact ⟨by simp, ih⟩
  | dir _ _ _ ih1 ih2 => exact ⟨ih1, ih2⟩

/-- Cut alike with no two chunks that hash alike: the same bytes. -/
theorem same_chunks {x y : Bytes} (hc : Chunk.Contract cut)
    (h : ∀ b ∈ Chunk.chunkFile C.hash cut x, ∀ c ∈ Chunk.chunkFile C.hash cut y, b.id = c.id → b.data = c.data)
    (he : (Chunk.chunkFile C.hash cut x).map Blob.id = (Chunk.chunkFile C.hash cut y).map Blob.id) : x = y := by
  rw [← C10.chunks_concat C.hash cut hc x, ← C10.chunks_concat C.hash cut hc y]
  have key : ∀ l m : List (Blob Id), (∀ b ∈ l, ∀ c ∈ m, b.id = c.id → b.data = c.data) →
      l.map Blob.id = m.map Blob.id → (l.map Blob.data) = (m.map Blob.data) := by
    intro l
    induction l with
    | nil =>
      intro m _ he
      cases m with
      | nil => rfl
      | cons => cases he
    | cons b l ih =>
      intro m hd he
      cases m with
      | nil => cases he
      | cons c m =>
        simp only [List.map_cons, List.cons.injEq] at he ⊢
        exact ⟨hd b (by simp) c (by simp) he.1,
          ih m (fun b hb c hc => hd b (List.mem_cons_of_mem _ hb) c (List.mem_cons_of_mem _ hc)) he.2⟩
  rw [key _ _ h he]

/-- File trees with the same nodes are the same. -/
theorem treeOf_inj (hc : Chunk.Contract cut) (d : Dir Bytes) : ∀ d' : Dir Bytes, Plain d → Plain d' →
    ChunksDiffer C cut d d' →
    (∀ s s', SubDir s d → SubDir s' d' → idOf C cut s = idOf C cut s' → treeOf C cut s = treeOf C cut s') →
    treeOf C cut d = treeOf C cut d' → d = d' := by
  induction d with
  | nil =>
    intro d' _ hp' _ _ h
    cases d' with
    | nil => rfl
    | leaf n md l r =>
      cases l with
      | other => exact absurd rfl hp'.1
      | file x => cases h
      | link x => cases h
    | dir n md s r => cases h
  | leaf n md l r ih =>
    intro d' hp hp' hch hdi h
    cases d' with
    | nil =>
      cases l with
      | other => exact absurd rfl hp.1
      | file x => cases h
      | link x => cases h
    | leaf n' md' l' r' =>
      have hrest : treeOf C cut r = treeOf C cut r' → r = r' :=
        ih r' hp.2 hp'.2 (fun x y hx hy => hch x y (hx.imp .inr .inr) (hy.imp .inr .inr)) hdi
      cases l with
      | other => exact absurd rfl hp.1
      | file x =>
        cases l' with
        | other => exact absurd rfl hp'.1
        | link y => simp [treeOf] at h
        | file y =>
          simp only [treeOf, List.cons.injEq, Prod.mk.injEq, Node.mk.injEq, Contents.file.injEq] at h
          obtain ⟨⟨rfl, h1, rfl⟩, h2⟩ := h
          rw [hrest h2, same_chunks hc (hch x y (.inl (.inl rfl)) (.inr (.inl rfl))) h1]
      | link x =>
        cases l' with
        | other => exact absurd rfl hp'.1
        | file y => simp [treeOf] at h
        | link y =>
          simp only [treeOf, List.cons.injEq, Prod.mk.injEq, Node.mk.injEq, Contents.link.injEq] at h
          obtain ⟨⟨rfl, rfl, rfl⟩, h2⟩ := h
          rw [hrest h2]
    | dir n' md' s' r' => cases l <;> simp [treeOf] at h; exact absurd rfl hp.1
  | dir n md s r ihs ih =>
    intro d' hp hp' hch hdi h
    cases d' with
    | nil => cases h
    | leaf n' md' l' r' => cases l' <;> simp [treeOf] at h; exact absurd rfl hp'.1
    | dir n' md' s' r' =>
      simp only [treeOf, List.cons.injEq, Prod.mk.injEq, Node.mk.injEq, Contents.dir.injEq] at h
      obtain ⟨⟨rfl, h1, rfl⟩, h2⟩ := h
      rw [ih r' hp.2 hp'.2 (fun x y hx hy => hch x y (hx.imp .inr .inr) (hy.imp .inr .inr))
          (fun a b ha hb => hdi a b (.inr (.inr ha)) (.inr (.inr hb))) h2,
        ihs s' hp.1 hp'.1 (fun x y hx hy => hch x y (hx.imp .inl .inl) (hy.imp .inl .inl))
          (fun a b ha hb => hdi a b (.inr (.inl ha)) (.inr (.inl hb)))
          (hdi s s' (.inl rfl) (.inl rfl) h1)]

variable [LinearOrder Id] {R R' : Repo Id} {F : Forest Id} {filter : Path → Bool}

/-- Chunk lists stay as they are if trees do. -/
theorem holdsCut_move (hagree : ∀ id t t', TreeAt C R id t → TreeAt C R' id t' → t = t') {id : Id} {d : Dir Bytes}
    (h : HoldsCut C R cut id d) (h' : Holds C R' id d) : HoldsCut C R' cut id d := by
  obtain ⟨t, ht, hd⟩ := h
  obtain ⟨t', ht', hd'⟩ := h'
  obtain rfl := hagree _ _ _ ht ht'
  refine ⟨t, ht', ?_⟩
  clear ht ht'
  induction hd with
  | nil => cases hd'; exact .nil
  | file h1 _ ih =>
    cases hd' with
    | file g1 g2 => exact .file ⟨g1, h1.2⟩ (ih g2)
  | link _ ih =>
    cases hd' with
    | link g2 => exact .link (ih g2)
  | dir h1 _ _ ih1 ih2 =>
    cases hd' with
    | dir g1 g2 g3 =>
      obtain rfl := hagree _ _ _ h1 g1
      exact .dir g1 (ih1 g2) (ih2 g3)

/-- The new nodes of a tree that is filtered are those of the file tree less what is skipped. -/
theorem filterNodes_treeOf (hS : Sound C R) (hF : ∀ id t, InForest F id t → TreeAt C R id t)
    {t : Tree Id} {d : Dir Bytes}
    (h : DirRel (fun cs x => FileHolds C R cs x ∧ cs = (Chunk.chunkFile C.hash cut x).map Blob.id) (TreeAt C R) t d) :
    ∀ (k : Nat) (path : Path), (∀ s, Sub t s → Tall (InForest F) k s) →
    (filterNodes filter (filterTree C filter F k) path t).1 =
      treeOf C cut (keep filter (fun n => path ++ [n]) d) := by
  induction h with
  | nil => intro k path _; rfl
  | @file n cs md t x d h1 _ ih =>
    intro k path ht
    have hr := ih k path (fun s ⟨m, md, h⟩ => ht s ⟨m, md, List.mem_cons_of_mem _ h⟩)
    by_cases hf : filter (path ++ [n]) = false
    · simp only [filterNodes, Spec.keep, if_pos hf, if_pos (Or.inl hf), hr]
    · rw [Spec.keep, if_neg (by simp [hf])]
      simp only [filterNodes, if_neg hf, treeOf, hr]
      rw [← h1.2]
  | @link n tgt md t d _ ih =>
    intro k path ht
    have hr := ih k path (fun s ⟨m, md, h⟩ => ht s ⟨m, md, List.mem_cons_of_mem _ h⟩)
    by_cases hf : filter (path ++ [n]) = false
    · simp only [filterNodes, Spec.keep, if_pos hf, if_pos (Or.inl hf), hr]
    · rw [Spec.keep, if_neg (by simp [hf])]
      simp only [filterNodes, if_neg hf, treeOf, hr]
  | @dir n id md t u sub d hu _ _ ih1 ih2 =>
    intro k path ht
    have hr := ih2 k path (fun s ⟨m, md, h⟩ => ht s ⟨m, md, List.mem_cons_of_mem _ h⟩)
    by_cases hf : filter (path ++ [n]) = false
    · simp only [filterNodes, Spec.keep, if_pos hf, hr]
    · have htall := ht id ⟨n, md, List.mem_cons_self⟩
      obtain ⟨k, rfl⟩ : ∃ j, k = j + 1 := by
        cases k with
        | zero => exact htall.elim
        | succ j => exact ⟨j, rfl⟩
      obtain ⟨u', hu', htall⟩ := htall
      obtain rfl := hS.treeAt_one (hF _ _ hu') hu
      have hsub := ih1 k (path ++ [n]) htall
      have hcall : (filterTree C filter F (k + 1) (path ++ [n]) id).1 =
          C.hash (C.encTree (treeOf C cut (keep filter (fun m => path ++ [n] ++ [m]) sub))) := by
        unfold InForest at hu'
        simp only [filterTree, hu', hsub]
      simp only [filterNodes, Spec.keep, if_neg hf, treeOf, hr, hcall]

/-- The new ID of a tree that is filtered. -/
theorem filterTree_idOf (hS : Sound C R) (hF : ∀ id t, InForest F id t → TreeAt C R id t) {u : Id} {d : Dir Bytes}
    (h : HoldsCut C R cut u d) (k : Nat) (path : Path) (ht : Tall (InForest F) k u) :
    (filterTree C filter F k path u).1 = idOf C cut (keep filter (fun n => path ++ [n]) d) := by
  obtain ⟨t, h1, h2⟩ := h
  cases k with
  | zero => exact ht.elim
  | succ k =>
    obtain ⟨t', h3, h4⟩ := ht
    obtain rfl := hS.treeAt_one (hF _ _ h3) h1
    have := filterNodes_treeOf (filter := filter) hS hF h2 k path h4
    unfold InForest at h3
    simp only [filterTree, h3, this]
    rfl

/-- Skipping some and then more is skipping all of it at once. -/
theorem keep_keep {f f1 f2 : Path → Bool} (d : Dir Bytes) : ∀ p1 p2 : Name → Path,
    (∀ n q, f (p1 n ++ q) = (f1 (p1 n ++ q) && f2 (p2 n ++ q))) →
    keep f p1 d = keep f2 p2 (keep f1 p1 d) := by
  induction d with
  | nil => intro _ _ _; rfl
  | leaf n md l r ih =>
    intro p1 p2 h
    have h0 := h n []
    simp only [List.append_nil] at h0
    have hr := ih p1 p2 h
    by_cases ho : l = .other
    · rw [Spec.keep, if_pos (.inr ho), Spec.keep, if_pos (.inr ho), hr]
    · cases e1 : f1 (p1 n) <;> cases e2 : f2 (p2 n) <;> rw [e1, e2] at h0 <;>
        simp [Spec.keep, h0, e1, e2, ho, hr]
  | dir n md s r ihs ih =>
    intro p1 p2 h
    have h0 := h n []
    simp only [List.append_nil] at h0
    have hr := ih p1 p2 h
    have hs := ihs (fun m => p1 n ++ [m]) (fun m => p2 n ++ [m]) (fun m q => by
      have := h n (m :: q)
      simpa [List.append_assoc] using this)
    cases e1 : f1 (p1 n) <;> cases e2 : f2 (p2 n) <;> rw [e1, e2] at h0 <;>
      simp [Spec.keep, h0, e1, e2, hr, hs]

theorem putLeaf_front {n : Name} {md : Meta} {l : Leaf Bytes} {d : Dir Bytes} (h : ∀ m ∈ d.names, n < m) :
    d.putLeaf n md l = .leaf n md l d := by
  cases d with
  | nil => rfl
  | leaf m md' l' r => exact if_pos (h m List.mem_cons_self)
  | dir m md' s r => exact if_pos (h m List.mem_cons_self)

theorem putDir_front {n : Name} {md : Meta} {s d : Dir Bytes} (h : ∀ m ∈ d.names, n < m) :
    Dir.putDir n md s d = .dir n md s d := by
  cases d with
  | nil => rfl
  | leaf m md' l' r => exact if_pos (h m List.mem_cons_self)
  | dir m md' s' r => exact if_pos (h m List.mem_cons_self)

theorem keep_above {f : Path → Bool} {p : Name → Path} {n : Name} {d : Dir Bytes} (h : ∀ m ∈ d.names, n < m) :
    ∀ m ∈ (keep f p d).names, n < m := fun m hm => h m ((keep_names f d p).subset hm)

theorem keep_putLeaf {f : Path → Bool} {p : Name → Path} {n : Name} {md : Meta} {l : Leaf Bytes} {d : Dir Bytes}
    (hs : d.Sorted) (hn : n ∉ d.names) : keep f p (d.putLeaf n md l) =
      if f (p n) = false ∨ l = .other then keep f p d else (keep f p d).putLeaf n md l := by
  induction d with
  | nil => rfl
  | leaf m md' l' r ih =>
    have hr := ih hs.2 (fun h => hn (List.mem_cons_of_mem _ h))
    rw [Dir.putLeaf]
    by_cases hlt : n < m
    · have hall : ∀ k ∈ (Dir.leaf m md' l' r).names, n < k := by
        intro k hk
        rcases List.mem_cons.mp hk with rfl | hk
        · exact hlt
        · exact hlt.trans (hs.1 k hk)
      rw [if_pos hlt, putLeaf_front (keep_above hall), Spec.keep.eq_2 f p n]
    · rw [if_neg hlt, if_neg (fun e => hn (by rw [e]; exact List.mem_cons_self)), Spec.keep, Spec.keep, hr]
      have hne : ¬ n = m := fun e => hn (by rw [e]; exact List.mem_cons_self)
      split <;> split <;> simp [Dir.putLeaf, hlt, hne]
  | dir m md' s' r _ ih =>
    have hr := ih hs.2.2 (fun h => hn (List.mem_cons_of_mem _ h))
    rw [Dir.putLeaf]
    by_cases hlt : n < m
    · have hall : ∀ k ∈ (Dir.dir m md' s' r).names, n < k := by
        intro k hk
        rcases List.mem_cons.mp hk with rfl | hk
        · exact hlt
        · exact hlt.trans (hs.1 k hk)
      rw [if_pos hlt, putLeaf_front (keep_above hall), Spec.keep.eq_2 f p n]
    · rw [if_neg hlt, if_neg (fun e => hn (by rw [e]; exact List.mem_cons_self)), Spec.keep, Spec.keep, hr]
      have hne : ¬ n = m := fun e => hn (by rw [e]; exact List.mem_cons_self)
      split <;> split <;> simp [Dir.putLeaf, hlt, hne]

theorem keep_putDir {f : Path → Bool} {p : Name → Path} {n : Name} {md : Meta} {s d : Dir Bytes}
    (hs : d.Sorted) (hn : n ∉ d.names) : keep f p (Dir.putDir n md s d) =
      if f (p n) = false then keep f p d else Dir.putDir n md (keep f (fun m => p n ++ [m]) s) (keep f p d) := by
  induction d with
  | nil => rfl
  | leaf m md' l' r ih =>
    have hr := ih hs.2 (fun h => hn (List.mem_cons_of_mem _ h))
    rw [Dir.putDir]
    by_cases hlt : n < m
    · have hall : ∀ k ∈ (Dir.leaf m md' l' r).names, n < k := by
        intro k hk
        rcases List.mem_cons.mp hk with rfl | hk
        · exact hlt
        · exact hlt.trans (hs.1 k hk)
      rw [if_pos hlt, putDir_front (keep_above hall), Spec.keep.eq_3 f p n]
    · rw [if_neg hlt, if_neg (fun e => hn (by rw [e]; exact List.mem_cons_self)), Spec.keep, Spec.keep, hr]
      have hne : ¬ n = m := fun e => hn (by rw [e]; exact List.mem_cons_self)
      split <;> split <;> simp [Dir.putDir, hlt, hne]
  | dir m md' s' r _ ih =>
    have hr := ih hs.2.2 (fun h => hn (List.mem_cons_of_mem _ h))
    rw [Dir.putDir]
    by_cases hlt : n < m
    · have hall : ∀ k ∈ (Dir.dir m md' s' r).names, n < k := by
        intro k hk
        rcases List.mem_cons.mp hk with rfl | hk
        · exact hlt
        · exact hlt.trans (hs.1 k hk)
      rw [if_pos hlt, putDir_front (keep_above hall), Spec.keep.eq_3 f p n]
    · rw [if_neg hlt, if_neg (fun e => hn (by rw [e]; exact List.mem_cons_self)), Spec.keep, Spec.keep, hr]
      have hne : ¬ n = m := fun e => hn (by rw [e]; exact List.mem_cons_self)
      split <;> split <;> simp [Dir.putDir, hlt, hne]

theorem keep_putAll {f : Path → Bool} {p : Name → Path} (d : Dir Bytes) : ∀ acc : Dir Bytes, acc.Sorted → SubsSorted d →
    d.names.Nodup → (∀ n ∈ d.names, n ∉ acc.names) →
    keep f p (putAll acc d) = putAll (keep f p acc) (keep f p d) := by
  induction d with
  | nil => intro _ _ _ _ _; rfl
  | leaf n md l r ih =>
    intro acc ha hs hnd hn
    have hnd' := List.nodup_cons.mp hnd
    rw [putAll, ih _ (sorted_putLeaf ha) hs hnd'.2 (fun m hm => by
      rw [names_putLeaf]
      rintro (rfl | h)
      · exact hnd'.1 hm
      · exact hn m (List.mem_cons_of_mem _ hm) h), keep_putLeaf ha (hn n List.mem_cons_self), Spec.keep.eq_2]
    split <;> rfl
  | dir n md s r _ ih =>
    intro acc ha hs hnd hn
    have hnd' := List.nodup_cons.mp hnd
    rw [putAll, ih _ (sorted_putDir hs.1 ha) hs.2 hnd'.2 (fun m hm => by
      rw [names_putDir]
      rintro (rfl | h)
      · exact hnd'.1 hm
      · exact hn m (List.mem_cons_of_mem _ hm) h), keep_putDir ha (hn n List.mem_cons_self), Spec.keep.eq_3]
    split <;> rfl

/-- Putting in order and skipping can be swapped. -/
theorem keep_arrange {f : Path → Bool} {p : Name → Path} {d : Dir Bytes} (hs : SubsSorted d) (hnd : d.names.Nodup) :
    keep f p (arrange d) = arrange (keep f p d) :=
  keep_putAll d .nil trivial hs hnd (fun _ _ h => by cases h)

theorem subs_keep {f : Path → Bool} {d : Dir Bytes} : ∀ p : Name → Path, SubsSorted d → SubsSorted (keep f p d) := by
  have sorted : ∀ {d : Dir Bytes} (p : Name → Path), d.Sorted → (keep f p d).Sorted := by
    intro d
    induction d with
    | nil => intro _ _; trivial
    | leaf n md l r ih =>
      intro p h
      rw [Spec.keep]
      split
      · exact ih p h.2
      · exact ⟨keep_above h.1, ih p h.2⟩
    | dir n md s r ihs ih =>
      intro p h
      rw [Spec.keep]
      split
      · exact ih p h.2.2
      · exact ⟨keep_above h.1, ihs _ h.2.1, ih p h.2.2⟩
  induction d with
  | nil => intro _ _; trivial
  | leaf n md l r ih =>
    intro p h
    rw [Spec.keep]
    split
    · exact ih p h
    · exact ih p h
  | dir n md s r _ ih =>
    intro p h
    rw [Spec.keep]
    split
    · exact ih p h.2
    · exact ⟨sorted _ h.1, ih p h.2⟩

end Backpak.TreeId
