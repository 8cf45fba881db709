import Verif.Lemmas.Json
import Mathlib.Data.List.Nodup
import Verif.Props.C01
import Verif.Props.C05

/-!
# Nothing is lost in printing an object
-/

namespace Backpak.Pretty

open Json (Distinct)

/-- Different times are printed differently. -/
structure Exact (T : Clock) : Prop where
  instant : ∀ t t', T.instant t = T.instant t' → t = t'
  zoned : ∀ t z t' z', T.zoned t z = T.zoned t' z' → t = t' ∧ z = z'

theorem map_inj {A B : Type} {f : A → B} (hf : ∀ a a', f a = f a' → a = a') {l l' : List A} (h : l.map f = l'.map f) :
    l = l' := List.map_injective_iff.mpr (fun _ _ h => hf _ _ h) h

theorem oid_inj {i j : ObjectId} (h : oid i = oid j) : i = j := by
  simp only [oid, Json.str.injEq] at h
  exact C01.display_injective i j h

theorem kind_inj {k k' : Kind} (h : kind k = kind k') : k = k' := by
  cases k <;> cases k' <;> first | rfl | (simp only [kind, Json.str.injEq] at h; exact absurd h (by decide))

theorem nat_inj {n m : Nat} (h : Json.num n = Json.num m) : n = m := by
  simpa using h

theorem entry_inj {e e' : Entry ObjectId} (h : entry e = entry e') : e = e' := by
  simp only [entry, Json.obj.injEq, List.cons.injEq, fld, Prod.mk.injEq, true_and, and_true] at h
  obtain ⟨h1, h2, h3⟩ := h
  cases e
  cases e'
  simp only [Entry.mk.injEq]
  exact ⟨kind_inj h1, nat_inj h2, oid_inj h3⟩

theorem manifest_inj {m m' : Manifest ObjectId} (h : manifest m = manifest m') : m = m' := by
  simp only [manifest, Json.arr.injEq] at h
  exact map_inj (fun _ _ => entry_inj) h

theorem index_inj {x x' : Index ObjectId} (h : index x = index x') : x = x' := by
  simp only [index, Json.obj.injEq, List.cons.injEq, fld, Prod.mk.injEq, true_and, and_true, Json.arr.injEq] at h
  obtain ⟨h1, h2⟩ := h
  cases x
  cases x'
  simp only [Index.mk.injEq]
  refine ⟨map_inj (fun _ _ => oid_inj) h1, map_inj ?_ h2⟩
  rintro ⟨a, m⟩ ⟨b, n⟩ hab
  simp only [Prod.mk.injEq] at hab ⊢
  exact ⟨C01.display_injective _ _ hab.1, manifest_inj hab.2⟩

theorem instantOption_inj {T : Clock} (hT : Exact T) {o o' : Option Int} (h : instantOption T o = instantOption T o') :
    o = o' := by
  cases o <;> cases o' <;> simp only [instantOption, instant, Json.str.injEq, reduceCtorEq] at h ⊢
  rw [hT.instant _ _ h]

theorem metadata_inj {T : Clock} (hT : Exact T) {m m' : Meta} (h : metadata T m = metadata T m') : m = m' := by
  cases m with
  | posix p =>
    cases m' with
    | posix q =>
      obtain ⟨a1, a2, a3, a4, a5, a6⟩ := p
      obtain ⟨b1, b2, b3, b4, b5, b6⟩ := q
      simp only [metadata, Json.obj.injEq] at h
      have hs : a2 = b2 ∧ a1 = b1 ∧ a3 = b3 ∧ a4 = b4 ∧ T.instant a5 = T.instant b5 ∧ T.instant a6 = T.instant b6 := by
        cases a2 <;> cases b2 <;> simp [sizeField, fld, instant, ascii] at h ⊢
        all_goals grind
      obtain ⟨rfl, rfl, rfl, rfl, h5, h6⟩ := hs
      rw [hT.instant _ _ h5, hT.instant _ _ h6]
    | windows w =>
      simp only [metadata, Json.obj.injEq, List.cons_append, List.cons.injEq, fld, Prod.mk.injEq, Json.str.injEq] at h
      exact absurd h.1.2 (by decide)
  | windows p =>
    cases m' with
    | posix w =>
      simp only [metadata, Json.obj.injEq, List.cons_append, List.cons.injEq, fld, Prod.mk.injEq, Json.str.injEq] at h
      exact absurd h.1.2 (by decide)
    | windows q =>
      obtain ⟨a1, a2, a3, a4, a5⟩ := p
      obtain ⟨b1, b2, b3, b4, b5⟩ := q
      simp only [metadata, Json.obj.injEq] at h
      have hs : a2 = b2 ∧ a1 = b1 ∧ instantOption T a3 = instantOption T b3 ∧ instantOption T a4 = instantOption T b4 ∧
          instantOption T a5 = instantOption T b5 := by
        cases a2 <;> cases b2 <;> simp [sizeField, fld, ascii] at h ⊢
        all_goals grind
      obtain ⟨rfl, rfl, h3, h4, h5⟩ := hs
      rw [instantOption_inj hT h3, instantOption_inj hT h4, instantOption_inj hT h5]

theorem contents_inj {c c' : Contents ObjectId} (h : contents c = contents c') : c = c' := by
  cases c <;> cases c' <;> simp only [contents, fld, Prod.mk.injEq, true_and, Json.arr.injEq, Json.str.injEq] at h
  all_goals first
    | exact absurd h.1 (by decide)
    | (rw [map_inj (fun _ _ => oid_inj) h])
    | (rw [oid_inj h])
    | (rw [h])

theorem node_inj {T : Clock} (hT : Exact T) {n n' : Node ObjectId} (h : node T n = node T n') : n = n' := by
  simp only [node, Json.obj.injEq, List.cons.injEq, fld, Prod.mk.injEq, true_and, and_true] at h
  cases n
  cases n'
  simp only [Node.mk.injEq]
  exact ⟨contents_inj h.1, metadata_inj hT h.2⟩

theorem tree_inj {T : Clock} (hT : Exact T) {t t' : Tree ObjectId} (h : tree T t = tree T t') : t = t' := by
  simp only [tree, Json.obj.injEq] at h
  refine map_inj ?_ h
  rintro ⟨a, m⟩ ⟨b, n⟩ hab
  simp only [Prod.mk.injEq] at hab ⊢
  exact ⟨hab.1, node_inj hT hab.2⟩

theorem snapshot_inj {T : Clock} (hT : Exact T) {s s' : Snapshot ObjectId} (hs : ∀ p ∈ s.paths, Serde.OkPath p)
    (hs' : ∀ p ∈ s'.paths, Serde.OkPath p) (h : snapshot T s = snapshot T s') : s = s' := by
  simp only [snapshot, Json.obj.injEq, List.cons.injEq, fld, Prod.mk.injEq, true_and, and_true, Json.arr.injEq,
    Json.str.injEq] at h
  obtain ⟨h1, h2, h3, h4, h5⟩ := h
  have ht : s.tags = s'.tags := map_inj (fun _ _ h => by simpa using h) h3
  have hp : s.paths = s'.paths := by
    have e : ∀ l : List Path, (∀ p ∈ l, Serde.OkPath p) →
        (l.map fun p => Json.str (Serde.pathText p)).map (fun j => match j with
          | .str b => Serde.pathOfText b
          | _ => []) = l := by
      intro l hl
      rw [List.map_map]
      conv_rhs => rw [← List.map_id l]
      refine List.map_congr_left fun p hp => ?_
      exact Serde.pathOfText_pathText p (hl p hp)
    have := congrArg (List.map (fun j => match j with
          | .str b => Serde.pathOfText b
          | _ => [])) h4
    rwa [e _ hs, e _ hs'] at this
  obtain ⟨h1, h1'⟩ := hT.zoned _ _ _ _ h1
  cases s
  cases s'
  simp only [Snapshot.mk.injEq]
  exact ⟨h1, h1', h2, ht, hp, oid_inj h5⟩

/-! ## Keys -/

theorem distinct_arr {A : Type} {f : A → Json} (hf : ∀ a, Distinct (f a)) (l : List A) : Distinct (.arr (l.map f)) := by
  refine .arr fun j hj => ?_
  obtain ⟨a, _, rfl⟩ := List.mem_map.mp hj
  exact hf a

theorem distinct_entry (e : Entry ObjectId) : Distinct (entry e) := by
  refine .obj (by simp only [fld, List.map_cons, List.map_nil]; decide) ?_
  simp only [List.mem_cons, List.not_mem_nil, or_false, forall_eq_or_imp, forall_eq, fld]
  exact ⟨by cases e.kind <;> exact .str _, .num _, .str _⟩

theorem distinct_manifest (m : Manifest ObjectId) : Distinct (manifest m) := distinct_arr distinct_entry m

theorem distinct_index {x : Index ObjectId} (h : BMap.Sorted x.packs) : Distinct (index x) := by
  refine .obj (by simp only [fld, List.map_cons, List.map_nil]; decide) ?_
  simp only [List.mem_cons, List.not_mem_nil, or_false, forall_eq_or_imp, forall_eq, fld]
  refine ⟨distinct_arr (fun _ => .str _) _, .obj ?_ ?_⟩
  · rw [List.map_map]
    have : (x.packs.map (Prod.fst ∘ fun p => (p.1.display, manifest p.2))) = (BMap.keys x.packs).map ObjectId.display := by
      simp [BMap.keys]
    rw [this]
    exact List.Nodup.map (fun a b h => C01.display_injective a b h) h.nodup
  · intro p hp
    obtain ⟨q, _, rfl⟩ := List.mem_map.mp hp
    exact distinct_manifest _

theorem distinct_option (T : Clock) (o : Option Int) : Distinct (instantOption T o) := by
  cases o
  · exact .null
  · exact .str _

theorem distinct_metadata (T : Clock) (m : Meta) : Distinct (metadata T m) := by
  cases m with
  | posix p =>
    obtain ⟨a1, a2, a3, a4, a5, a6⟩ := p
    refine .obj ?_ ?_
    · cases a2 <;>
        (simp only [sizeField, fld, List.map_cons, List.map_nil, List.append_nil, List.cons_append, List.nil_append]; decide)
    · cases a2 <;>
        (simp only [sizeField, fld, List.append_nil, List.cons_append, List.nil_append, List.mem_cons, List.not_mem_nil,
          or_false, forall_eq_or_imp, forall_eq, instant]
         simp [Distinct.str, Distinct.num])
  | windows w =>
    obtain ⟨a1, a2, a3, a4, a5⟩ := w
    refine .obj ?_ ?_
    · cases a2 <;>
        (simp only [sizeField, fld, List.map_cons, List.map_nil, List.append_nil, List.cons_append, List.nil_append]; decide)
    · cases a2 <;>
        (simp only [sizeField, fld, List.append_nil, List.cons_append, List.nil_append, List.mem_cons, List.not_mem_nil,
          or_false, forall_eq_or_imp, forall_eq]
         simp [Distinct.str, Distinct.num, distinct_option])

theorem distinct_node (T : Clock) (n : Node ObjectId) : Distinct (node T n) := by
  obtain ⟨c, m⟩ := n
  refine .obj ?_ ?_
  · cases c <;> (simp only [contents, fld, List.map_cons, List.map_nil]; decide)
  · simp only [List.mem_cons, List.not_mem_nil, or_false, forall_eq_or_imp, forall_eq]
    refine ⟨?_, distinct_metadata T m⟩
    cases c
    · exact distinct_arr (fun _ => .str _) _
    · exact .str _
    · exact .str _

theorem distinct_tree (T : Clock) {t : Tree ObjectId} (h : BMap.Sorted t) : Distinct (tree T t) := by
  refine .obj ?_ ?_
  · rw [List.map_map]
    exact h.nodup
  · intro p hp
    obtain ⟨q, _, rfl⟩ := List.mem_map.mp hp
    exact distinct_node T _

theorem distinct_snapshot (T : Clock) (s : Snapshot ObjectId) : Distinct (snapshot T s) := by
  refine .obj (by simp only [fld, List.map_cons, List.map_nil]; decide) ?_
  simp only [List.mem_cons, List.not_mem_nil, or_false, forall_eq_or_imp, forall_eq, fld]
  exact ⟨.str _, .str _, distinct_arr (fun _ => .str _) _, distinct_arr (fun _ => .str _) _, .str _⟩

end Backpak.Pretty
