import Verif.Spec.Listing
import Verif.Lemmas.Path
import Verif.Props.C21

/-!
# The forest of what is on the disk
-/

namespace Backpak

open Spec

variable {Id : Type} [LinearOrder Id] {C : Codec Id} {cut : Bytes → Nat}

/-- A forest of trees under their hashes, of which `M` holds, whose nodes agree with their
metadata. -/
structure Grown (C : Codec Id) (M : Tree Id → Prop) (f : Forest Id) : Prop where
  sorted : BMap.Sorted f
  made : ∀ id u, (id, u) ∈ f → id = C.hash (C.encTree u) ∧ Serde.OkTree u ∧ M u ∧
    ∀ e ∈ u, e.2.md.kind = e.2.contents.kind

/-- No two of these trees hash alike. -/
def Distinct (C : Codec Id) (M : Tree Id → Prop) : Prop :=
  ∀ t t', M t → M t' → C.hash (C.encTree t) = C.hash (C.encTree t') → t = t'

variable {M : Tree Id → Prop} (hM : Distinct C M)

theorem grown_nil : Grown C M ([] : Forest Id) := ⟨by simp [BMap.Sorted, BMap.keys], by simp⟩

theorem grown_insert {f : Forest Id} (h : Grown C M f) {u : Tree Id} (h1 : Serde.OkTree u) (h2 : M u)
    (h3 : ∀ e ∈ u, e.2.md.kind = e.2.contents.kind) :
    Grown C M (BMap.insert (C.hash (C.encTree u)) u f) := by
  refine ⟨BMap.sorted_insert h.sorted _ _, ?_⟩
  intro id w hw
  rcases BMap.mem_insert_of hw with ⟨rfl, rfl⟩ | hw
  · exact ⟨rfl, h1, h2, h3⟩
  · exact h.made id w hw

include hM in
theorem mem_grown_insert {f : Forest Id} (h : Grown C M f) {u : Tree Id} (h2 : M u) {id : Id} {w : Tree Id} :
    (id, w) ∈ BMap.insert (C.hash (C.encTree u)) u f ↔ (id, w) ∈ f ∨ id = C.hash (C.encTree u) ∧ w = u := by
  rw [BMap.mem_insert_iff h.sorted]
  constructor
  · rintro (h' | h')
    · exact .inr h'
    · exact .inl h'.2
  · rintro (h' | h')
    · by_cases he : id = C.hash (C.encTree u)
      · left
        obtain ⟨g1, _, g2, _⟩ := h.made id w h'
        exact ⟨he, hM _ _ g2 h2 (g1.symm.trans he)⟩
      · exact .inr ⟨he, h'⟩
    · exact .inl h'

include hM in
/-- Putting one forest into another. -/
theorem grown_merge (g : Forest Id) : ∀ f : Forest Id, Grown C M f → (∀ id u, (id, u) ∈ g → id = C.hash (C.encTree u) ∧
    Serde.OkTree u ∧ M u ∧ ∀ e ∈ u, e.2.md.kind = e.2.contents.kind) →
    Grown C M (g.foldl (fun f e => BMap.insert e.1 e.2 f) f) ∧
    ∀ id w, (id, w) ∈ g.foldl (fun f e => BMap.insert e.1 e.2 f) f ↔ (id, w) ∈ f ∨ (id, w) ∈ g := by
  induction g with
  | nil => intro f hf _; exact ⟨hf, by simp⟩
  | cons e g ih =>
    obtain ⟨i, u⟩ := e
    intro f hf hg
    obtain ⟨h1, h2, h3, h4⟩ := hg i u (by simp)
    subst h1
    obtain ⟨g1, g2⟩ := ih _ (grown_insert hf h2 h3 h4) (fun id w hw => hg id w (List.mem_cons_of_mem _ hw))
    refine ⟨g1, fun id w => ?_⟩
    rw [List.foldl_cons, g2, mem_grown_insert hM hf h3, List.mem_cons, Prod.mk.injEq, or_assoc]

theorem grown_get {f : Forest Id} (h : Grown C M f) {id : Id} {u : Tree Id} : f.get? id = some u ↔ (id, u) ∈ f :=
  BMap.get?_eq_some_iff h.sorted

theorem held_mono {PF : List Id → Bytes → Prop} {f f' : Forest Id} (hf : Grown C M f) (hf' : Grown C M f')
    (hs : ∀ id u, (id, u) ∈ f → (id, u) ∈ f') {t : Tree Id} {d : Dir Bytes} (h : HeldIn PF f t d) :
    HeldIn PF f' t d :=
  h.mono (fun _ _ h => h) (fun id u h => (grown_get hf').mpr (hs id u ((grown_get hf).mp h)))

theorem held_byHash {PF : List Id → Bytes → Prop} {f : Forest Id} (hf : Grown C M f)
    {t : Tree Id} {d : Dir Bytes} (h : HeldIn PF f t d) : ByHash C PF t d :=
  h.mono (fun _ _ h => h) (fun id u h => (hf.made id u ((grown_get hf).mp h)).1)

section Visits
variable {t : Tree Id} {f : Forest Id} {n : Name} {md : Meta} {prev : Option (Node Id)}

theorem fvisit_link {tgt : Bytes} (h : n ∉ BMap.keys t) : (forestVisitor C cut).visit (t, f) n md prev (.link tgt) () =
    .ok ((BMap.insert n ⟨.link tgt, md⟩ t, f), ()) := by
  simp only [forestVisitor, C21.addNode_new (BMap.get?_eq_none_iff.mpr h)]
  rfl

theorem fvisit_changed {x : Bytes} (h : n ∉ BMap.keys t) : (forestVisitor C cut).visit (t, f) n md prev (.changed x) () =
    .ok ((BMap.insert n ⟨.file ((Chunk.chunkFile C.hash cut x).map Blob.id), md⟩ t, f), ()) := by
  simp only [forestVisitor, C21.addNode_new (BMap.get?_eq_none_iff.mpr h)]
  rfl

theorem fvisit_unchanged {cs : List Id} {m : Meta} (h : n ∉ BMap.keys t) :
    (forestVisitor C cut).visit (t, f) n md (some ⟨.file cs, m⟩) .unchanged () =
    .ok ((BMap.insert n ⟨.file cs, md⟩ t, f), ()) := by
  simp only [forestVisitor, C21.addNode_new (BMap.get?_eq_none_iff.mpr h)]
  rfl

theorem fvisit_dir {s : Id} {g : Forest Id} (h : n ∉ BMap.keys t) :
    (forestVisitor C cut).visit (t, f) n md prev (.dir (s, g)) () =
    .ok ((BMap.insert n ⟨.dir s, md⟩ t, g.foldl (fun f e => BMap.insert e.1 e.2 f) f), ()) := by
  simp only [forestVisitor, C21.addNode_new (BMap.get?_eq_none_iff.mpr h)]
  rfl

end Visits

/-- What a walk that has got to some directory has built. -/
structure Built (C : Codec Id) (M : Tree Id → Prop) (PF : List Id → Bytes → Prop) (t : Tree Id) (f : Forest Id)
    (acc : Dir Bytes) : Prop where
  growing : Growing t
  kinds : ∀ e ∈ t, e.2.md.kind = e.2.contents.kind
  grown : Grown C M f
  held : HeldIn PF f t acc

omit [LinearOrder Id] in
theorem kinds_insert {t : Tree Id} {n : Name} {x : Node Id} (h : ∀ e ∈ t, e.2.md.kind = e.2.contents.kind)
    (hx : x.md.kind = x.contents.kind) : ∀ e ∈ BMap.insert n x t, e.2.md.kind = e.2.contents.kind := by
  rintro ⟨k, v⟩ he
  rcases BMap.mem_insert_of he with ⟨rfl, rfl⟩ | he
  · exact hx
  · exact h _ he

include hM in
theorem forest_walk {PF : List Id → Bytes → Prop} {F : Forest Id} (hF : NodesOk F) (hc : Chunk.Contract cut) (d : Dir Bytes) :
    ∀ (pathOf : Name → Path) (pt : Option (Tree Id)) (t : Tree Id) (f : Forest Id) (acc : Dir Bytes),
    Plain d → d.KindsOk → SubsSorted d → Fits d → C21.PrevOk pt →
    Reuse (fun cs x => PF cs x ∧ cs.length < 2 ^ 64) F pt d →
    (∀ x, HasFile x d → PF ((Chunk.chunkFile C.hash cut x).map Blob.id) x) →
    (∀ s, SubDir s d → ∀ u, Serde.OkTree u → ByHash C PF u s → M u) →
    d.names.Nodup → (∀ n ∈ d.names, n ∉ BMap.keys t) → Built C M PF t f acc →
    ∃ t' f', walkFs (forestVisitor C cut) (fun _ => true) F pathOf pt d (t, f) () = .ok ((t', f'), ()) ∧
      Built C M PF t' f' (putAll acc d) ∧ t'.length ≤ t.length + d.names.length ∧ ∀ id u, (id, u) ∈ f → (id, u) ∈ f' := by
  induction d with
  | nil => intro pathOf pt t f acc _ _ _ _ _ _ _ _ _ _ hb; exact ⟨t, f, rfl, hb, by simp [Dir.names], fun _ _ h => h⟩
  | leaf n md lf rest ih =>
    intro pathOf pt t f acc hpl hk hsub hfit hpt hre hfile hMd hnd hnt hb
    obtain ⟨hn, hm, hl, hfit⟩ := hfit
    obtain ⟨hnd1, hnd2⟩ := List.nodup_cons.mp hnd
    have hnn := hnt n (by simp [Dir.names])
    have next : ∀ x : Node Id, ∀ m ∈ rest.names, m ∉ BMap.keys (BMap.insert n x t) := by
      intro x m hm' hmem
      rcases BMap.keys_insert_mem.mp hmem with rfl | h
      · exact hnd1 hm'
      · exact hnt m (by simp [Dir.names, hm']) h
    unfold walkFs
    rw [if_neg (by simp)]
    dsimp only
    cases lf with
    | other => exact absurd rfl hpl.1
    | link tgt =>
      dsimp only
      rw [fvisit_link hnn]
      dsimp only
      have hb' : Built C M PF (BMap.insert n ⟨.link tgt, md⟩ t) f (acc.putLeaf n md (.link tgt)) :=
        ⟨hb.growing.insert hn hl hm, kinds_insert hb.kinds hk.1, hb.grown, hb.held.putLink n md tgt⟩
      obtain ⟨t', f', g1, g2, g3, g4⟩ := ih pathOf pt _ f _ hpl.2 hk.2 hsub hfit hpt hre.2
        (fun x hx => hfile x (.inr hx)) (fun s hs => hMd s hs) hnd2 (next _) hb'
      refine ⟨t', f', g1, g2, ?_, g4⟩
      have := length_insert_le t n ⟨.link tgt, md⟩
      simp only [Dir.names, List.length_cons]
      omega
    | file x =>
      dsimp only
      obtain ⟨ch, hch⟩ := C21.fileChanged_ok hk.1 (prev := pt.bind fun t => BMap.get? t n) (fun y hy => hpt n y hy)
      rw [hch]
      dsimp only
      have hcase : ∃ cs, (forestVisitor C cut).visit (t, f) n md (pt.bind fun t => BMap.get? t n)
          (if ch = true then .changed x else .unchanged) () = .ok ((BMap.insert n ⟨.file cs, md⟩ t, f), ()) ∧
          PF cs x ∧ cs.length < 2 ^ 64 := by
        cases ch with
        | true =>
          refine ⟨_, fvisit_changed hnn, hfile x (.inl rfl), ?_⟩
          rw [List.length_map]
          exact lt_of_le_of_lt (chunks_few hc _ x) hl
        | false =>
          obtain ⟨cs, m, hp, hun⟩ := fileChanged_false hch
          refine ⟨cs, ?_, hre.1 x cs m rfl hp hun⟩
          rw [hp]
          exact fvisit_unchanged hnn
      obtain ⟨cs, hv, hP, hlen⟩ := hcase
      rw [hv]
      dsimp only
      have hb' : Built C M PF (BMap.insert n ⟨.file cs, md⟩ t) f (acc.putLeaf n md (.file x)) :=
        ⟨hb.growing.insert hn hlen hm, kinds_insert hb.kinds hk.1, hb.grown, hb.held.putFile n md hP⟩
      obtain ⟨t', f', g1, g2, g3, g4⟩ := ih pathOf pt _ f _ hpl.2 hk.2 hsub hfit hpt hre.2
        (fun x hx => hfile x (.inr hx)) (fun s hs => hMd s hs) hnd2 (next _) hb'
      refine ⟨t', f', g1, g2, ?_, g4⟩
      have := length_insert_le t n ⟨.file cs, md⟩
      simp only [Dir.names, List.length_cons]
      omega
  | dir n md sub rest ihs ih =>
    intro pathOf pt t f acc hpl hk hsub hfit hpt hre hfile hMd hnd hnt hb
    obtain ⟨hn, hm, hcount, hfs, hfit⟩ := hfit
    obtain ⟨hnd1, hnd2⟩ := List.nodup_cons.mp hnd
    have hnn := hnt n (by simp [Dir.names])
    have next : ∀ x : Node Id, ∀ m ∈ rest.names, m ∉ BMap.keys (BMap.insert n x t) := by
      intro x m hm' hmem
      rcases BMap.keys_insert_mem.mp hmem with rfl | h
      · exact hnd1 hm'
      · exact hnt m (by simp [Dir.names, hm']) h
    unfold walkFs
    rw [if_neg (by simp)]
    dsimp only
    rw [prevSub_eq]
    obtain ⟨j, fj, k1, k2, k3, _⟩ := ihs (fun m => pathOf n ++ [m]) (prevSub F pt n) [] [] .nil hpl.1 hk.2.1
      (Sorted.subs hsub.1) hfs (C21.prevOk_sub hF pt n) hre.1 (fun x hx => hfile x (.inl hx))
      (fun s hs => hMd s (.inr (.inl hs)))
      ((sorted_names hsub.1).imp (fun {a b} h e => by rw [e] at h; exact lt_irrefl _ h)) (by simp [BMap.keys])
      ⟨growing_nil, by simp, grown_nil, .nil⟩
    have hinit : (forestVisitor C cut).init = (([], []) : Tree Id × Forest Id) := rfl
    rw [hinit, k1]
    dsimp only
    have hfin : (forestVisitor C cut).finalize (j, fj) () =
        .ok ((C.hash (C.encTree j), BMap.insert (C.hash (C.encTree j)) j fj), ()) := rfl
    rw [hfin]
    dsimp only
    rw [fvisit_dir hnn]
    dsimp only
    have harr : putAll .nil sub = sub := arrange_sorted hsub.1
    rw [harr] at k2
    have hjok : Serde.OkTree j := k2.growing.ok (by
      simp only [List.length_nil, Nat.zero_add] at k3
      omega)
    have hjM : M j := hMd sub (.inl rfl) j hjok (held_byHash k2.grown k2.held)
    have hgj : Grown C M (BMap.insert (C.hash (C.encTree j)) j fj) := grown_insert k2.grown hjok hjM k2.kinds
    obtain ⟨hg1, hg2⟩ := grown_merge hM (BMap.insert (C.hash (C.encTree j)) j fj) f hb.grown hgj.made
    have hheldj : HeldIn PF ((BMap.insert (C.hash (C.encTree j)) j fj).foldl (fun f e => BMap.insert e.1 e.2 f) f) j sub :=
      held_mono k2.grown hg1 (fun id u h => (hg2 id u).mpr (.inr ((mem_grown_insert hM k2.grown hjM).mpr (.inl h)))) k2.held
    have hb' : Built C M PF (BMap.insert n ⟨.dir (C.hash (C.encTree j)), md⟩ t)
        ((BMap.insert (C.hash (C.encTree j)) j fj).foldl (fun f e => BMap.insert e.1 e.2 f) f)
        (Dir.putDir n md sub acc) := by
      refine ⟨hb.growing.insert hn trivial hm, kinds_insert hb.kinds hk.1, hg1, ?_⟩
      refine (held_mono hb.grown hg1 (fun id u h => (hg2 id u).mpr (.inl h)) hb.held).putDir n md ?_ hheldj
      exact (grown_get hg1).mpr ((hg2 _ _).mpr (.inr ((mem_grown_insert hM k2.grown hjM).mpr (.inr ⟨rfl, rfl⟩))))
    obtain ⟨t', f', g1, g2, g3, g4⟩ := ih pathOf pt _ _ _ hpl.2 hk.2.2 hsub.2 hfit hpt hre.2
      (fun x hx => hfile x (.inr hx)) (fun s hs => hMd s (.inr (.inr hs))) hnd2 (next _) hb'
    refine ⟨t', f', g1, g2, ?_, fun id u h => g4 id u ((hg2 id u).mpr (.inl h))⟩
    have := length_insert_le t n ⟨.dir (C.hash (C.encTree j)), md⟩
    simp only [Dir.names, List.length_cons]
    omega

include hM in
/-- The forest of a listing. -/
theorem forest_from_fs {PF : List Id → Bytes → Prop} {F : Forest Id} (hF : NodesOk F) (hc : Chunk.Contract cut)
    {pathOf : Name → Path} {root : Option Id} {d : Dir Bytes}
    (hpl : Plain d) (hk : d.KindsOk) (hsub : SubsSorted d) (hfit : Fits d)
    (hlen : d.names.length < 2 ^ 64)
    (hre : Reuse (fun cs x => PF cs x ∧ cs.length < 2 ^ 64) F (root.bind (fun id => F.get? id)) d)
    (hfile : ∀ x, HasFile x d → PF ((Chunk.chunkFile C.hash cut x).map Blob.id) x)
    (hMd : ∀ s, SubDir s d ∨ s = arrange d → ∀ u, Serde.OkTree u → ByHash C PF u s → M u)
    (hnd : d.names.Nodup) :
    ∃ t f, forestFromFs C cut F pathOf root d = .ok (C.hash (C.encTree t), f) ∧ Serde.OkTree t ∧ M t ∧
      Grown C M f ∧ f.get? (C.hash (C.encTree t)) = some t ∧ HeldIn PF f t (arrange d) := by
  obtain ⟨t, f, h1, h2, h3, _⟩ := forest_walk hM hF hc d pathOf (root.bind (fun id => F.get? id)) [] [] .nil hpl hk hsub
    hfit (by
      intro n x hx
      cases hg : root.bind (fun id => F.get? id) with
      | none => rw [hg] at hx; cases hx
      | some t =>
        rw [hg] at hx
        cases root with
        | none => cases hg
        | some id => exact hF id t hg n x hx) hre hfile (fun s hs => hMd s (.inl hs)) hnd (by simp [BMap.keys])
    ⟨growing_nil, by simp, grown_nil, .nil⟩
  have hok : Serde.OkTree t := h2.growing.ok (by
    simp only [List.length_nil, Nat.zero_add] at h3
    omega)
  have hMt : M t := hMd _ (.inr rfl) t hok (held_byHash h2.grown h2.held)
  have hg := grown_insert h2.grown hok hMt h2.kinds
  refine ⟨t, BMap.insert (C.hash (C.encTree t)) t f, ?_, hok, hMt, hg, ?_, ?_⟩
  · unfold forestFromFs walkTop
    have hinit : (forestVisitor C cut).init = (([], []) : Tree Id × Forest Id) := rfl
    rw [hinit, h1]
    rfl
  · exact (grown_get hg).mpr ((mem_grown_insert hM h2.grown hMt).mpr (.inr ⟨rfl, rfl⟩))
  · exact held_mono h2.grown hg (fun id u h => (mem_grown_insert hM h2.grown hMt).mpr (.inl h)) h2.held

end Backpak
