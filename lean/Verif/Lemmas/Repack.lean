import Verif.Model.Repack
import Verif.Lemmas.Offer
import Verif.Lemmas.ReadBack
import Verif.Spec.Walk
import Verif.Spec.Filter

/-!
# What repacking a snapshot sends
-/

namespace Backpak

open Spec

variable {Id : Type} [LinearOrder Id] {C : Codec Id} {R : Repo Id} {src : Source Id}
  {env : CacheEnv Id}

/-- The chunks of a file that can be read. -/
theorem repackChunks_ok (he : C33.EnvOk env) (hS : Sound C R) (ho : Opens R src) {cs : List Id}
    {x : Bytes} (h : FileHolds C R cs x) :
    ∃ L : List (Blob Id), L.map Blob.id = cs ∧ (L.map Blob.data).flatten = x ∧
      (∀ b ∈ L, Has C R b ∧ b.kind = .chunk) ∧
      ∀ s r, C33.Settled C R env r → ∃ r', repackChunks C src env cs (s, r) = .ok (L.foldl offer s, r') ∧
        C33.Settled C R env r' := by
  induction h with
  | nil => exact ⟨[], rfl, rfl, by simp, fun s r hr => ⟨r, rfl, hr⟩⟩
  | @cons c x cs y hc _ ih =>
    obtain ⟨L, h1, h2, h3, h4⟩ := ih
    refine ⟨⟨x, c, .chunk⟩ :: L, by simp [h1], by simp [h2], ?_, ?_⟩
    · intro b hb
      rcases List.mem_cons.mp hb with rfl | hb
      · exact ⟨hc, rfl⟩
      · exact h3 b hb
    · intro s r hr
      simp only [repackChunks, List.foldl_cons]
      split
      · rename_i hp
        rw [C33.size_right hS ho c x hc]
        simp only
        obtain ⟨r', h5, h6⟩ := h4 s r hr
        exact ⟨r', by rw [h5]; simp only [offer, if_pos hp], h6⟩
      · obtain ⟨r1, h5, h6⟩ := C33.read_ok he hS ho r hr c x hc
        rw [h5]
        exact h4 _ r1 h6

/-- A node that can be written down. -/
def NodeOk (e : Name × Node Id) : Prop :=
  e.1.length < 2 ^ 64 ∧ Serde.OkContents e.2.contents ∧ Serde.OkMeta e.2.md

/-- A blob of a tree or of a tree below it. -/
def Under (C : Codec Id) (R : Repo Id) (t : Tree Id) (b : Blob Id) : Prop :=
  (b.kind = .chunk ∧ b.id ∈ chunksInTree t) ∨
  ∃ s, Sub t s ∧ ∃ u t', Reaches (TreeAt C R) s u ∧ TreeAt C R u t' ∧
    (b = ⟨C.encTree t', u, .tree⟩ ∨ (b.kind = .chunk ∧ b.id ∈ chunksInTree t'))

theorem Under.cons {t : Tree Id} {b : Blob Id} (e : Name × Node Id) (h : Under C R t b) :
    Under C R (e :: t) b := by
  rcases h with ⟨h1, h2⟩ | ⟨s, ⟨n, md, hm⟩, h2⟩
  · exact .inl ⟨h1, List.mem_append_right _ h2⟩
  · exact .inr ⟨s, ⟨n, md, List.mem_cons_of_mem _ hm⟩, h2⟩

/-- What comes of repacking the nodes `t`, which stand for `d`: blobs `L` and new nodes `t'`. -/
structure Repacked (C : Codec Id) (R : Repo Id) (filter : Path → Bool) (path : Path) (t : Tree Id)
    (d : Dir Bytes) (L : List (Blob Id)) (t' : Tree Id) : Prop where
  made : ∀ b ∈ L, WellMade C b ∧ (b.kind = .chunk → Has C R b)
  names : (BMap.keys t').Sublist (BMap.keys t)
  nodes : ∀ e ∈ t', NodeOk e
  holds : ∀ R', (∀ b ∈ L, b = emptyBlob C ∨ Has C R' b) →
    DirHolds C R' t' (keep filter (fun n => path ++ [n]) d)
  same : (∀ p, filter p = true) → t' = t
  under : (∀ p, filter p = true) → ∀ b ∈ L, Under C R t b

theorem Repacked.okTree {filter : Path → Bool} {path : Path} {t t' : Tree Id} {d : Dir Bytes}
    {L : List (Blob Id)} (h : Repacked C R filter path t d L t') (ht : Serde.OkTree t) :
    Serde.OkTree t' := by
  refine ⟨List.Pairwise.sublist h.names ht.sorted, ?_, fun e he => (h.nodes e he).1,
    fun e he => (h.nodes e he).2.1, fun e he => (h.nodes e he).2.2⟩
  have := h.names.length_le
  simp only [BMap.keys, List.length_map] at this
  exact Nat.lt_of_le_of_lt this ht.len

theorem repackNodes_skip {filter : Path → Bool} {down : Path → Id → Repacking Id → Res (Id × Repacking Id)}
    {path : Path} {n : Name} {x : Node Id} {rest acc : Tree Id} {st : Repacking Id}
    (h : filter (path ++ [n]) = false) :
    repackNodes C src env filter down path ((n, x) :: rest) acc st =
      repackNodes C src env filter down path rest acc st := by
  rw [repackNodes, if_pos h]

theorem repackNodes_take {filter : Path → Bool} {down : Path → Id → Repacking Id → Res (Id × Repacking Id)}
    {path : Path} {n : Name} {x y : Node Id} {rest acc : Tree Id} {st st' : Repacking Id}
    (h : filter (path ++ [n]) = true) (hacc : ∀ m ∈ BMap.keys acc, m < n)
    (hnew : repackNode C src env down (path ++ [n]) x st = .ok (y, st')) :
    repackNodes C src env filter down path ((n, x) :: rest) acc st =
      repackNodes C src env filter down path rest (acc ++ [(n, y)]) st' := by
  have hnone : BMap.get? acc n = none := BMap.get?_eq_none_iff.mpr (fun hm => lt_irrefl _ (hacc n hm))
  rw [repackNodes, if_neg (by simp [h]), hnew]
  simp only [hnone, Option.isSome_none, Bool.false_eq_true, if_false, BMap.insert_of_all_lt hacc]

/-- Repacking the nodes of a tree. -/
theorem repackNodes_ok (he : C33.EnvOk env) (hS : Sound C R) (ho : Opens R src)
    (filter : Path → Bool) {F : Forest Id} (hF : ∀ id t, InForest F id t → TreeAt C R id t)
    {t : Tree Id} {d : Dir Bytes} (h : DirHolds C R t d) :
    (∀ e ∈ t, NodeOk e) → BMap.Sorted t → ∀ (k : Nat) (path : Path),
    (∀ s, Sub t s → Tall (InForest F) k s) →
    ∃ L t', (Repacked C R filter path t d L t' ∧
        t' = (filterNodes filter (filterTree C filter F k) path t).1 ∧
        ∀ b, b ∈ L ∧ b.kind = .tree ↔ b ∈ (filterNodes filter (filterTree C filter F k) path t).2) ∧
      ∀ acc s r, (∀ m ∈ BMap.keys acc, ∀ n ∈ BMap.keys t, m < n) → C33.Settled C R env r →
        ∃ r', repackNodes C src env filter (repackTree C src env filter F k) path t acc (s, r) =
          .ok (acc ++ t', (L.foldl offer s, r')) ∧ C33.Settled C R env r' := by
  induction h with
  | nil =>
    intro _ _ k path _
    refine ⟨[], [], ⟨⟨by simp, by simp [BMap.keys], by simp, fun _ _ => .nil, fun _ => rfl, by simp⟩, rfl, by simp [filterNodes]⟩, ?_⟩
    intro acc s r _ hr
    exact ⟨r, by simp [repackNodes], hr⟩
  | @file n cs md t x d hf hd ih =>
    intro hn hs k path ht
    obtain ⟨L, t', ⟨hL, hLt, hLb⟩, hrun⟩ := ih (fun e h => hn e (List.mem_cons_of_mem _ h)) hs.tail k path
      (fun s ⟨m, md, h⟩ => ht s ⟨m, md, List.mem_cons_of_mem _ h⟩)
    by_cases hfil : filter (path ++ [n]) = true
    · obtain ⟨B, b1, b2, b3, b4⟩ := repackChunks_ok he hS ho hf
      refine ⟨B ++ L, (n, ⟨.file cs, md⟩) :: t', ⟨⟨?_, ?_, ?_, ?_, ?_, ?_⟩, ?_, ?_⟩, ?_⟩
      rotate_left 6
      · simp only [filterNodes, hfil, Bool.true_eq_false, if_false]
        rw [← hLt]
      · intro b
        simp only [filterNodes, hfil, Bool.true_eq_false, if_false]
        rw [← hLb, List.mem_append]
        refine ⟨fun ⟨hb, hk⟩ => ⟨hb.resolve_left (fun hb => ?_), hk⟩, fun ⟨hb, hk⟩ => ⟨.inr hb, hk⟩⟩
        rw [(b3 b hb).2] at hk; cases hk
      rotate_left 1
      · intro b hb
        rcases List.mem_append.mp hb with hb | hb
        · obtain ⟨c1, c2⟩ := b3 b hb
          refine ⟨⟨?_, c1.1, fun hk => by rw [c2] at hk; cases hk⟩, fun _ => c1⟩
          obtain ⟨_, p, bs, l, hp, hm⟩ := c1
          exact hS.full p bs b l hp hm
        · exact hL.made b hb
      · exact hL.names.cons_cons n
      · intro e he
        rcases List.mem_cons.mp he with rfl | he
        · exact hn _ (List.mem_cons_self)
        · exact hL.nodes e he
      · intro R' hR
        have hB : FileHolds C R' cs x := by
          rw [← b1, ← b2]
          refine file_holds B (fun b hb => ⟨?_, (b3 b hb).2⟩)
          rcases hR b (List.mem_append_left _ hb) with h | h
          · have := (b3 b hb).2
            rw [h] at this; cases this
          · exact h
        have hrest := hL.holds R' (fun b hb => hR b (List.mem_append_right _ hb))
        have hkeep : keep filter (fun n => path ++ [n]) (.leaf n md (.file x) d) =
            .leaf n md (.file x) (keep filter (fun n => path ++ [n]) d) := by
          simp [keep, hfil]
        rw [hkeep]
        exact .file hB hrest
      · intro ha; rw [hL.same ha]
      · intro ha b hb
        rcases List.mem_append.mp hb with hb | hb
        · refine .inl ⟨(b3 b hb).2, List.mem_append_left _ ?_⟩
          simp only [chunksInNode]
          rw [← b1]
          exact List.mem_map.mpr ⟨b, hb, rfl⟩
        · exact (hL.under ha b hb).cons _
      · intro acc s r hacc hr
        obtain ⟨r1, h1, h2⟩ := b4 s r hr
        obtain ⟨r2, h3, h4⟩ := hrun (acc ++ [(n, ⟨.file cs, md⟩)]) (B.foldl offer s) r1 (by
          intro m hm k hk
          simp only [BMap.keys, List.map_append, List.map_cons, List.map_nil, List.mem_append,
            List.mem_singleton] at hm
          rcases hm with hm | rfl
          · exact hacc m hm k (List.mem_cons_of_mem _ hk)
          · exact hs.head_lt k hk) h2
        refine ⟨r2, ?_, h4⟩
        rw [repackNodes_take (y := ⟨.file cs, md⟩) (st' := (B.foldl offer s, r1)) hfil
          (fun m hm => hacc m hm n (List.mem_cons_self)) (by simp only [repackNode, h1]; rfl), h3, List.foldl_append]
        simp
    · have hfil' : filter (path ++ [n]) = false := by simpa using hfil
      refine ⟨L, t', ⟨⟨hL.made, hL.names.cons n, hL.nodes, ?_, ?_, ?_⟩, by simp only [filterNodes, hfil', if_true]; exact hLt,
        by simp only [filterNodes, hfil', if_true]; exact hLb⟩, ?_⟩
      · intro R' hR
        have hkeep : keep filter (fun n => path ++ [n]) (.leaf n md (.file x) d) =
            keep filter (fun n => path ++ [n]) d := by
          simp [keep, hfil']
        rw [hkeep]
        exact hL.holds R' hR
      · intro ha; exact absurd (ha _) hfil
      · intro ha; exact absurd (ha _) hfil
      · intro acc s r hacc hr
        rw [repackNodes_skip hfil']
        exact hrun acc s r (fun m hm k hk => hacc m hm k (List.mem_cons_of_mem _ hk)) hr
  | @link n tgt md t d hd ih =>
    intro hn hs k path ht
    obtain ⟨L, t', ⟨hL, hLt, hLb⟩, hrun⟩ := ih (fun e h => hn e (List.mem_cons_of_mem _ h)) hs.tail k path
      (fun s ⟨m, md, h⟩ => ht s ⟨m, md, List.mem_cons_of_mem _ h⟩)
    by_cases hfil : filter (path ++ [n]) = true
    · refine ⟨L, (n, ⟨.link tgt, md⟩) :: t', ⟨⟨hL.made, hL.names.cons_cons n, ?_, ?_, ?_, ?_⟩,
        by simp only [filterNodes, hfil, Bool.true_eq_false, if_false]; rw [← hLt],
        by simp only [filterNodes, hfil, Bool.true_eq_false, if_false]; exact hLb⟩, ?_⟩
      · intro e he
        rcases List.mem_cons.mp he with rfl | he
        · exact hn _ (List.mem_cons_self)
        · exact hL.nodes e he
      · intro R' hR
        have hkeep : keep filter (fun n => path ++ [n]) (.leaf n md (.link tgt) d) =
            .leaf n md (.link tgt) (keep filter (fun n => path ++ [n]) d) := by
          simp [keep, hfil]
        rw [hkeep]
        exact .link (hL.holds R' hR)
      · intro ha; rw [hL.same ha]
      · intro ha b hb; exact (hL.under ha b hb).cons _
      · intro acc s r hacc hr
        obtain ⟨r2, h3, h4⟩ := hrun (acc ++ [(n, ⟨.link tgt, md⟩)]) s r (by
          intro m hm k hk
          simp only [BMap.keys, List.map_append, List.map_cons, List.map_nil, List.mem_append,
            List.mem_singleton] at hm
          rcases hm with hm | rfl
          · exact hacc m hm k (List.mem_cons_of_mem _ hk)
          · exact hs.head_lt k hk) hr
        refine ⟨r2, ?_, h4⟩
        rw [repackNodes_take (y := ⟨.link tgt, md⟩) (st' := (s, r)) hfil
          (fun m hm => hacc m hm n (List.mem_cons_self)) rfl, h3]
        simp
    · have hfil' : filter (path ++ [n]) = false := by simpa using hfil
      refine ⟨L, t', ⟨⟨hL.made, hL.names.cons n, hL.nodes, ?_, ?_, ?_⟩, by simp only [filterNodes, hfil', if_true]; exact hLt,
        by simp only [filterNodes, hfil', if_true]; exact hLb⟩, ?_⟩
      · intro R' hR
        have hkeep : keep filter (fun n => path ++ [n]) (.leaf n md (.link tgt) d) =
            keep filter (fun n => path ++ [n]) d := by
          simp [keep, hfil']
        rw [hkeep]
        exact hL.holds R' hR
      · intro ha; exact absurd (ha _) hfil
      · intro ha; exact absurd (ha _) hfil
      · intro acc s r hacc hr
        rw [repackNodes_skip hfil']
        exact hrun acc s r (fun m hm k hk => hacc m hm k (List.mem_cons_of_mem _ hk)) hr
  | @dir n id md t u sub d hu hsub hd ih1 ih2 =>
    intro hn hs k path ht
    obtain ⟨L, t', ⟨hL, hLt, hLb⟩, hrun⟩ := ih2 (fun e h => hn e (List.mem_cons_of_mem _ h)) hs.tail k path
      (fun s ⟨m, md, h⟩ => ht s ⟨m, md, List.mem_cons_of_mem _ h⟩)
    by_cases hfil : filter (path ++ [n]) = true
    · have htall := ht id ⟨n, md, List.mem_cons_self⟩
      obtain ⟨k, rfl⟩ : ∃ j, k = j + 1 := by
        cases k with
        | zero => exact htall.elim
        | succ j => exact ⟨j, rfl⟩
      obtain ⟨u', hu', htall⟩ := htall
      obtain rfl := hS.treeAt_one (hF _ _ hu') hu
      obtain ⟨B, v, ⟨hB, hBt, hBb⟩, hBrun⟩ := ih1 (fun e h => ⟨hu.1.names e h, hu.1.contents e h, hu.1.mds e h⟩)
        hu.1.sorted k (path ++ [n]) htall
      have hv : Serde.OkTree v := hB.okTree hu.1
      have hcallF : filterTree C filter F (k + 1) (path ++ [n]) id = (C.hash (C.encTree v),
          (filterNodes filter (filterTree C filter F k) (path ++ [n]) u').2 ++
            [⟨C.encTree v, C.hash (C.encTree v), .tree⟩]) := by
        unfold InForest at hu'
        simp only [filterTree, hu', ← hBt]
      refine ⟨B ++ ⟨C.encTree v, C.hash (C.encTree v), .tree⟩ :: L,
        (n, ⟨.dir (C.hash (C.encTree v)), md⟩) :: t', ⟨⟨?_, ?_, ?_, ?_, ?_, ?_⟩, ?_, ?_⟩, ?_⟩
      rotate_left 6
      · simp only [filterNodes, hfil, Bool.true_eq_false, if_false]
        rw [hcallF, ← hLt]
      · intro b
        simp only [filterNodes, hfil, Bool.true_eq_false, if_false]
        rw [hcallF, List.mem_append, List.mem_append, List.mem_append, List.mem_cons, List.mem_singleton,
          ← hBb, ← hLb]
        constructor
        · rintro ⟨h | h | h, hk⟩
          · exact .inl (.inl ⟨h, hk⟩)
          · exact .inl (.inr h)
          · exact .inr ⟨h, hk⟩
        · rintro ((⟨h, hk⟩ | h) | ⟨h, hk⟩)
          · exact ⟨.inl h, hk⟩
          · exact ⟨.inr (.inl h), by rw [h]⟩
          · exact ⟨.inr (.inr h), hk⟩
      rotate_left 1
      · intro b hb
        rcases List.mem_append.mp hb with hb | hb
        · exact hB.made b hb
        · rcases List.mem_cons.mp hb with rfl | hb
          · exact ⟨⟨C.enc_ne v, rfl, fun _ => ⟨v, hv, rfl⟩⟩, fun h => by cases h⟩
          · exact hL.made b hb
      · exact hL.names.cons_cons n
      · intro e he
        rcases List.mem_cons.mp he with rfl | he
        · exact ⟨(hn _ List.mem_cons_self).1, trivial, (hn _ List.mem_cons_self).2.2⟩
        · exact hL.nodes e he
      · intro R' hR
        have hkeep : keep filter (fun n => path ++ [n]) (.dir n md sub d) =
            .dir n md (keep filter (fun m => path ++ [n] ++ [m]) sub) (keep filter (fun n => path ++ [n]) d) := by
          simp [keep, hfil]
        rw [hkeep]
        refine .dir (t' := v) ⟨hv, rfl, ?_⟩ (hB.holds R' (fun b hb => hR b (List.mem_append_left _ hb)))
          (hL.holds R' (fun b hb => hR b (List.mem_append_right _ (List.mem_cons_of_mem _ hb))))
        rcases hR _ (List.mem_append_right _ List.mem_cons_self) with h | h
        · left
          have h := congrArg Blob.data h
          exact enc_inj hv okTree_nil h
        · exact .inr h
      · intro ha
        rw [hL.same ha, hB.same ha, hu.2.1]
      · intro ha b hb
        rcases List.mem_append.mp hb with hb | hb
        · refine .inr ⟨id, ⟨n, md, List.mem_cons_self⟩, ?_⟩
          rcases hB.under ha b hb with h | ⟨s, ⟨m, md', hm⟩, w, t'', h1, h2⟩
          · exact ⟨id, u', .refl, hu, .inr h⟩
          · exact ⟨w, t'', .step hu hm h1, h2⟩
        · rcases List.mem_cons.mp hb with rfl | hb
          · refine .inr ⟨id, ⟨n, md, List.mem_cons_self⟩, id, u', .refl, hu, .inl ?_⟩
            rw [hB.same ha, hu.2.1]
          · exact (hL.under ha b hb).cons _
      · intro acc s r hacc hr
        obtain ⟨r1, h1, h2⟩ := hBrun [] s r (by simp [BMap.keys]) hr
        have hcall : repackTree C src env filter F (k + 1) (path ++ [n]) id (s, r) =
            .ok (C.hash (C.encTree v), (offer (B.foldl offer s)
              ⟨C.encTree v, C.hash (C.encTree v), .tree⟩, r1)) := by
          unfold InForest at hu'
          simp only [repackTree, hu', h1, List.nil_append]
        obtain ⟨r2, h3, h4⟩ := hrun (acc ++ [(n, ⟨.dir (C.hash (C.encTree v)), md⟩)])
          (offer (B.foldl offer s) ⟨C.encTree v, C.hash (C.encTree v), .tree⟩) r1 (by
          intro m hm k hk
          simp only [BMap.keys, List.map_append, List.map_cons, List.map_nil, List.mem_append,
            List.mem_singleton] at hm
          rcases hm with hm | rfl
          · exact hacc m hm k (List.mem_cons_of_mem _ hk)
          · exact hs.head_lt k hk) h2
        refine ⟨r2, ?_, h4⟩
        rw [repackNodes_take (y := ⟨.dir (C.hash (C.encTree v)), md⟩)
          (st' := (offer (B.foldl offer s) ⟨C.encTree v, C.hash (C.encTree v), .tree⟩, r1)) hfil
          (fun m hm => hacc m hm n (List.mem_cons_self)) (by simp only [repackNode, hcall]; rfl), h3,
          List.foldl_append, List.foldl_cons]
        simp
    · have hfil' : filter (path ++ [n]) = false := by simpa using hfil
      refine ⟨L, t', ⟨⟨hL.made, hL.names.cons n, hL.nodes, ?_, ?_, ?_⟩, by simp only [filterNodes, hfil', if_true]; exact hLt,
        by simp only [filterNodes, hfil', if_true]; exact hLb⟩, ?_⟩
      · intro R' hR
        have hkeep : keep filter (fun n => path ++ [n]) (.dir n md sub d) =
            keep filter (fun n => path ++ [n]) d := by
          simp [keep, hfil']
        rw [hkeep]
        exact hL.holds R' hR
      · intro ha; exact absurd (ha _) hfil
      · intro ha; exact absurd (ha _) hfil
      · intro acc s r hacc hr
        rw [repackNodes_skip hfil']
        exact hrun acc s r (fun m hm k hk => hacc m hm k (List.mem_cons_of_mem _ hk)) hr

/-- Blob `b` is part of what ID `root` stands for. -/
def PartOf (C : Codec Id) (R : Repo Id) (root : Id) (b : Blob Id) : Prop :=
  ∃ u t, Reaches (TreeAt C R) root u ∧ TreeAt C R u t ∧
    (b = ⟨C.encTree t, u, .tree⟩ ∨ (b.kind = .chunk ∧ b.id ∈ chunksInTree t))

/-- What comes of repacking the file tree `d` that `root` stands for: blobs `L` and a new root. -/
structure RepackedAs (C : Codec Id) (R : Repo Id) (filter : Path → Bool) (root : Id) (d : Dir Bytes)
    (L : List (Blob Id)) (root' : Id) : Prop where
  made : ∀ b ∈ L, WellMade C b ∧ (b.kind = .chunk → Has C R b)
  holds : ∀ R', (∀ b ∈ L, b = emptyBlob C ∨ Has C R' b) →
    Holds C R' root' (keep filter (fun n => [n]) d)
  same : (∀ p, filter p = true) → root' = root
  part : (∀ p, filter p = true) → ∀ b ∈ L, PartOf C R root b

/-- A forest with exactly the trees of a root. -/
def ForestOf (C : Codec Id) (R : Repo Id) (root : Id) (F : Forest Id) : Prop :=
  ∀ id t, F.get? id = some t ↔ Reaches (TreeAt C R) root id ∧ TreeAt C R id t

theorem ForestOf.tall {F : Forest Id} {root : Id} (h : ForestOf C R root F)
    (hg : Grounded (TreeAt C R) root) : Tall (InForest F) F.length root := by
  refine forest_tall ?_
  have key : ∀ id, Grounded (TreeAt C R) id → Reaches (TreeAt C R) root id → Grounded (InForest F) id := by
    intro id hg
    induction hg with
    | @mk id t ht hs ih =>
      intro hr
      refine .mk ((h id t).mpr ⟨hr, ht⟩) (fun s hsub => ih s hsub (hr.trans ?_))
      obtain ⟨n, md, hm⟩ := hsub
      exact .step ht hm .refl
  exact key root hg .refl

/-- Repacking a whole tree. -/
theorem repackTree_ok (he : C33.EnvOk env) (hS : Sound C R) (ho : Opens R src)
    (filter : Path → Bool) {F : Forest Id} {root : Id} {d : Dir Bytes} (hF : ForestOf C R root F)
    (h : Holds C R root d) :
    ∃ L root', (RepackedAs C R filter root d L root' ∧
        root' = (filterTree C filter F (F.length + 1) [] root).1 ∧
        ∀ b, b ∈ L ∧ b.kind = .tree ↔ b ∈ (filterTree C filter F (F.length + 1) [] root).2) ∧
      ∀ s r, C33.Settled C R env r →
        ∃ r', repackTree C src env filter F (F.length + 1) [] root (s, r) =
          .ok (root', (L.foldl offer s, r')) ∧ C33.Settled C R env r' := by
  obtain ⟨t, ht, hd⟩ := id h
  have htall := hF.tall (holds_grounded h)
  have hroot := (hF root t).mpr ⟨.refl, ht⟩
  have hsub : ∀ s, Sub t s → Tall (InForest F) F.length s := by
    cases hl : F.length with
    | zero => rw [hl] at htall; exact htall.elim
    | succ j =>
      rw [hl] at htall
      obtain ⟨t', h1, h2⟩ := htall
      obtain rfl : t' = t := InForest.one h1 hroot
      exact fun s hs => (h2 s hs).mono (Nat.le_succ j)
  obtain ⟨L, t', ⟨hL, hLt, hLb⟩, hrun⟩ := repackNodes_ok he hS ho filter (F := F)
    (fun id t h => ((hF id t).mp h).2) hd
    (fun e h => ⟨ht.1.names e h, ht.1.contents e h, ht.1.mds e h⟩) ht.1.sorted F.length [] hsub
  have ht' := hL.okTree ht.1
  refine ⟨L ++ [⟨C.encTree t', C.hash (C.encTree t'), .tree⟩], C.hash (C.encTree t'), ⟨⟨?_, ?_, ?_, ?_⟩, ?_, ?_⟩, ?_⟩
  rotate_left 4
  · simp only [filterTree, hroot, ← hLt]
  · intro b
    simp only [filterTree, hroot, ← hLt]
    rw [List.mem_append, List.mem_append, ← hLb, List.mem_singleton]
    constructor
    · rintro ⟨h | h, hk⟩
      · exact .inl ⟨h, hk⟩
      · exact .inr h
    · rintro (⟨h, hk⟩ | h)
      · exact ⟨.inl h, hk⟩
      · exact ⟨.inr h, by rw [h]⟩
  rotate_left 1
  · intro b hb
    rcases List.mem_append.mp hb with hb | hb
    · exact hL.made b hb
    · rw [List.mem_singleton] at hb
      subst hb
      exact ⟨⟨C.enc_ne t', rfl, fun _ => ⟨t', ht', rfl⟩⟩, fun h => by cases h⟩
  · intro R' hR
    refine ⟨t', ⟨ht', rfl, ?_⟩, hL.holds R' (fun b hb => hR b (List.mem_append_left _ hb))⟩
    rcases hR _ (List.mem_append_right _ (List.mem_singleton_self _)) with h | h
    · left
      exact enc_inj ht' okTree_nil (congrArg Blob.data h)
    · exact .inr h
  · intro ha
    rw [hL.same ha, ht.2.1]
  · intro ha b hb
    rcases List.mem_append.mp hb with hb | hb
    · rcases hL.under ha b hb with h | ⟨s, ⟨n, md, hm⟩, u, t'', h1, h2⟩
      · exact ⟨root, t, .refl, ht, .inr h⟩
      · exact ⟨u, t'', .step ht hm h1, h2⟩
    · rw [List.mem_singleton] at hb
      subst hb
      refine ⟨root, t, .refl, ht, .inl ?_⟩
      rw [hL.same ha, ht.2.1]
  · intro s r hr
    obtain ⟨r1, h1, h2⟩ := hrun [] s r (by simp [BMap.keys]) hr
    refine ⟨r1, ?_, h2⟩
    simp only [repackTree, hroot, h1, List.nil_append, List.foldl_append, List.foldl_cons, List.foldl_nil]

/-- The forests of snapshots that can be read. -/
theorem loadForests_ok (hS : Sound C R) (ho : Opens R src) (snaps : List (Snap Id))
    (hr : ∀ s ∈ snaps, Readable C R s.1) {cache : Forest Id} (hc : CacheOk C R cache) :
    ∃ sfs, loadForests C src cache snaps = .ok sfs := by
  induction snaps generalizing cache with
  | nil => exact ⟨[], rfl⟩
  | cons s rest ih =>
    obtain ⟨d, hd⟩ := hr s List.mem_cons_self
    obtain ⟨F, cache', h1, _⟩ := holds_forest hS ho hd hc
    have hc' := (C23.appendTree_sound hS ho _ [] s.1.tree ([], cache) (F, cache') BMap.sorted_nil hc h1).2.1
    obtain ⟨l, hl⟩ := ih (fun s h => hr s (List.mem_cons_of_mem _ h)) hc'
    exact ⟨(s, F) :: l, by simp only [loadForests, h1, hl]⟩

/-- Loaded forests are those of their snapshots. -/
theorem loadForests_sound (hS : Sound C R) (ho : Opens R src) (snaps : List (Snap Id))
    {cache : Forest Id} (hc : CacheOk C R cache) {sfs : List (Snap Id × Forest Id)}
    (h : loadForests C src cache snaps = .ok sfs) :
    sfs.map Prod.fst = snaps ∧ ∀ e ∈ sfs, ForestOf C R e.1.1.tree e.2 ∧ BMap.Sorted e.2 := by
  induction snaps generalizing cache sfs with
  | nil => cases h; exact ⟨rfl, by simp⟩
  | cons s rest ih =>
    simp only [loadForests] at h
    split at h
    · cases h
    · rename_i F cache' h1
      split at h
      · cases h
      · rename_i l hl
        cases h
        obtain ⟨hs', hc', _⟩ := C23.appendTree_sound hS ho _ [] s.1.tree ([], cache) (F, cache')
          BMap.sorted_nil hc h1
        obtain ⟨a, b⟩ := ih hc' hl
        refine ⟨by simp [a], ?_⟩
        intro e he
        rcases List.mem_cons.mp he with rfl | he
        · exact ⟨C23.forest_exact hS ho s.1.tree cache F cache' hc h1, hs'⟩
        · exact b e he

/-- Repacking snapshots one after another. -/
theorem walkSnapshots_ok (he : C33.EnvOk env) (hS : Sound C R) (ho : Opens R src)
    (filter : Path → Bool) (sfs : List (Snap Id × Forest Id))
    (hF : ∀ e ∈ sfs, ForestOf C R e.1.1.tree e.2) (hr : ∀ e ∈ sfs, Readable C R e.1.1) :
    ∃ rs : List (Id × List (Blob Id)),
      List.Forall₂ (fun e r => ∃ d, Holds C R e.1.1.tree d ∧
        RepackedAs C R filter e.1.1.tree d r.2 r.1 ∧
        r.1 = (filterTree C filter e.2 (e.2.length + 1) [] e.1.1.tree).1 ∧
        ∀ b, b ∈ r.2 ∧ b.kind = .tree ↔ b ∈ (filterTree C filter e.2 (e.2.length + 1) [] e.1.1.tree).2) sfs rs ∧
      ∀ s r, C33.Settled C R env r →
        ∃ r', walkSnapshots C src env filter sfs (s, r) =
          .ok (List.zipWith (fun e r => { e.1.1 with tree := r.1 }) sfs rs,
            ((rs.flatMap Prod.snd).foldl offer s, r')) ∧ C33.Settled C R env r' := by
  induction sfs with
  | nil => exact ⟨[], .nil, fun s r hr => ⟨r, rfl, hr⟩⟩
  | cons e rest ih =>
    obtain ⟨rs, h1, h2⟩ := ih (fun e h => hF e (List.mem_cons_of_mem _ h))
      (fun e h => hr e (List.mem_cons_of_mem _ h))
    obtain ⟨⟨sn, F⟩⟩ := e
    obtain ⟨d, hd⟩ := hr _ List.mem_cons_self
    obtain ⟨L, root', h3, h4⟩ := repackTree_ok he hS ho filter (hF _ List.mem_cons_self) hd
    refine ⟨(root', L) :: rs, .cons ⟨d, hd, h3⟩ h1, ?_⟩
    intro s r hr
    obtain ⟨r1, h5, h6⟩ := h4 s r hr
    obtain ⟨r2, h7, h8⟩ := h2 (L.foldl offer s) r1 h6
    refine ⟨r2, ?_, h8⟩
    simp only at h5
    simp only [walkSnapshots, h5, h7, List.zipWith_cons_cons, List.flatMap_cons, List.foldl_append]

end Backpak
