import Verif.Model.Serde
import Verif.Lemmas.Cbor
import Verif.Lemmas.BMap

/-! Round-trip lemmas for each serialised type. -/

namespace Backpak.Serde

open Cbor

theorem mapM_map_some {α β γ : Type} (f : α → β) (g : β → Option γ) (h : α → γ) (l : List α)
    (hl : ∀ a ∈ l, g (f a) = some (h a)) : (l.map f).mapM g = some (l.map h) := by
  induction l with
  | nil => rfl
  | cons a l ih =>
    rw [List.map_cons, List.mapM_cons, hl a (by simp),
      ih (fun x hx => hl x (List.mem_cons_of_mem _ hx))]
    rfl

theorem mapM_map_id {α β : Type} (f : α → β) (g : β → Option α) (l : List α)
    (hl : ∀ a ∈ l, g (f a) = some a) : (l.map f).mapM g = some l := by
  have := mapM_map_some f g id l hl
  simpa using this

@[simp] theorem asOid_oid (i : ObjectId) : asOid (oid i) = some i := by
  unfold asOid oid
  simp [i.len]

theorem asInt_int (b : Nat) (t : Int) (h1 : -(b : Int) ≤ t) (h2 : t < b) :
    asInt b (int t) = some t := by
  unfold int
  split
  · rename_i h
    unfold asInt
    have : t.toNat < b := by omega
    simp only [if_pos this]
    congr 1; omega
  · rename_i h
    unfold asInt
    have : (-1 - t).toNat < b := by omega
    simp only [if_pos this]
    congr 1; omega

theorem asI64_of_in (t : Int) (h : InI64 t) : asI64 t = t := by
  unfold asI64 InI64 at *
  omega

theorem asI64_in (t : Int) : InI64 (asI64 t) := by
  unfold asI64 InI64
  omega

theorem asInstant_instant (t : Int) : asInstant (instant t) = some (asI64 t) := by
  have h := asI64_in t
  unfold InI64 at h
  unfold asInstant instant
  refine asInt_int _ _ ?_ ?_
  · have : (((2 : Nat) ^ 63 : Nat) : Int) = 2 ^ 63 := by norm_cast
    rw [this]; exact h.1
  · have : (((2 : Nat) ^ 63 : Nat) : Int) = 2 ^ 63 := by norm_cast
    rw [this]; exact h.2

theorem asInstantOption_instantOption (t : Option Int) :
    asInstantOption (instantOption t) = some (t.map asI64) := by
  cases t with
  | none => rfl
  | some t =>
    have h := asInstant_instant t
    have hne : instantOption (some t) = instant t := rfl
    rw [hne]
    unfold instant int at *
    split at h <;> rename_i hc <;> simp only [if_pos, hc] <;> simp [asInstantOption, h]

theorem asUint_uint (b n : Nat) (h : n < b) : asUint b (.uint n) = some n := by
  simp [asUint, h]

theorem asKind_kind (k : Kind) : asKind (kind k) = some k := by cases k <;> rfl

theorem asEntry_entry (e : Entry ObjectId) (h : e.length < 2 ^ 32) : asEntry (entry e) = some e := by
  unfold asEntry entry
  have h1 : asFields (.map [str "type", kind e.kind, str "length", .uint e.length, str "id", oid e.id])
      = some [(ascii "type", kind e.kind), (ascii "length", .uint e.length), (ascii "id", oid e.id)] := rfl
  have h2 : field "type" [(ascii "type", kind e.kind), (ascii "length", .uint e.length),
      (ascii "id", oid e.id)] = some (kind e.kind) := rfl
  have h3 : field "length" [(ascii "type", kind e.kind), (ascii "length", .uint e.length),
      (ascii "id", oid e.id)] = some (.uint e.length) := rfl
  have h4 : field "id" [(ascii "type", kind e.kind), (ascii "length", .uint e.length),
      (ascii "id", oid e.id)] = some (oid e.id) := rfl
  simp only [h1, h2, h3, h4, asKind_kind, asUint_uint _ _ h, asOid_oid, Option.bind_eq_bind, Option.bind_some, pure]

theorem asManifest_manifest (m : Manifest ObjectId) (h : OkManifest m) :
    asManifest (manifest m) = some m := by
  unfold asManifest manifest
  simp only [asArr, Option.bind_eq_bind, Option.bind_some]
  exact mapM_map_id entry asEntry m (fun e he => asEntry_entry e (h.2 e he))

theorem asPackEntries_flat (l : List (ObjectId × Manifest ObjectId)) (h : ∀ p ∈ l, OkManifest p.2) :
    asPackEntries (l.flatMap fun p => [oid p.1, manifest p.2]) = some l := by
  induction l with
  | nil => rfl
  | cons p l ih =>
    rw [List.flatMap_cons]
    simp only [List.cons_append, List.nil_append, asPackEntries]
    rw [asManifest_manifest _ (h p (by simp)), ih (fun q hq => h q (List.mem_cons_of_mem _ hq))]
    simp

theorem BSet.ofList_of_sorted {K : Type} [LinearOrder K] {l : BSet K} (h : BSet.Sorted l) :
    BSet.ofList l = l :=
  BSet.ext_mem (BSet.sorted_ofList l) h (fun x => BSet.mem_ofList l x)

theorem asIndex_index (i : Index ObjectId) (h : OkIndex i) : asIndex (index i) = some i := by
  unfold asIndex index
  generalize hs : Cbor.arr (i.supersedes.map oid) = S
  generalize hp : Cbor.map (i.packs.flatMap fun p => [oid p.1, manifest p.2]) = P
  have h1 : asFields (.map [str "supersedes", S, str "packs", P])
      = some [(ascii "supersedes", S), (ascii "packs", P)] := rfl
  have h2 : field "supersedes" [(ascii "supersedes", S), (ascii "packs", P)] = some S := rfl
  have h3 : field "packs" [(ascii "supersedes", S), (ascii "packs", P)] = some P := rfl
  rw [h1]
  simp only [Option.bind_eq_bind, Option.bind_some, h2, h3]
  subst hs hp
  simp only [asArr, asMapItems, Option.bind_some]
  rw [mapM_map_id oid asOid _ (fun a _ => asOid_oid a), asPackEntries_flat _ h.manifests]
  simp [BSet.ofList_of_sorted h.sup, BMap.ofList_of_sorted h.packs]

/-- What metadata looks like after a trip to disk: timestamps are reduced to 64 bits. -/
def metaI64 : Meta → Meta
  | .posix p => .posix { p with atime := asI64 p.atime, mtime := asI64 p.mtime }
  | .windows w => .windows { w with
      ctime := w.ctime.map asI64, atime := w.atime.map asI64, mtime := w.mtime.map asI64 }

/-- Metadata fields other than timestamps fit their widths. -/
def OkMetaNoTime : Meta → Prop
  | .posix p => p.mode < 2 ^ 32 ∧ p.uid < 2 ^ 32 ∧ p.gid < 2 ^ 32 ∧
      (∀ n, p.size = some n → n < 2 ^ 64)
  | .windows w => w.attributes < 2 ^ 32 ∧ (∀ n, w.size = some n → n < 2 ^ 64)

theorem OkMeta.noTime {m : Meta} (h : OkMeta m) : OkMetaNoTime m := by
  cases m with
  | posix p => exact ⟨h.1, h.2.1, h.2.2.1, h.2.2.2.1⟩
  | windows w => exact ⟨h.1, h.2.1⟩

theorem metaI64_of_ok {m : Meta} (h : OkMeta m) : metaI64 m = m := by
  cases m with
  | posix p =>
    obtain ⟨_, _, _, _, h1, h2⟩ := h
    simp [metaI64, asI64_of_in _ h1, asI64_of_in _ h2]
  | windows w =>
    obtain ⟨_, _, h1, h2, h3⟩ := h
    have aux : ∀ o : Option Int, (∀ t, o = some t → InI64 t) → o.map asI64 = o := by
      intro o ho
      cases o with
      | none => rfl
      | some t => simp [asI64_of_in _ (ho t rfl)]
    simp [metaI64, aux _ h1, aux _ h2, aux _ h3]

set_option linter.unusedSimpArgs false

theorem asMetadata_posix (p : PosixMeta) (h : OkMetaNoTime (.posix p)) :
    asMetadata (metadata (.posix p)) = some (metaI64 (.posix p)) := by
  obtain ⟨h1, h2, h3, h4⟩ := h
  obtain ⟨mode, size, uid, gid, atime, mtime⟩ := p
  simp only at h1 h2 h3 h4
  unfold asMetadata metadata
  simp only
  generalize ha : instant atime = A
  generalize hm : instant mtime = M
  have ha' : asInstant A = some (asI64 atime) := by rw [← ha, asInstant_instant]
  have hm' : asInstant M = some (asI64 mtime) := by rw [← hm, asInstant_instant]
  cases size with
  | none =>
    have e : asFields (.map ([str "type", str "posix", str "mode", .uint mode] ++ sizeField none ++
        [str "uid", .uint uid, str "gid", .uint gid, str "atime", A, str "mtime", M]))
      = some [(ascii "type", str "posix"), (ascii "mode", .uint mode), (ascii "uid", .uint uid),
        (ascii "gid", .uint gid), (ascii "atime", A), (ascii "mtime", M)] := rfl
    rw [e]
    generalize hF : [(ascii "type", str "posix"), (ascii "mode", Cbor.uint mode),
      (ascii "uid", Cbor.uint uid), (ascii "gid", Cbor.uint gid), (ascii "atime", A),
      (ascii "mtime", M)] = F
    have f1 : field "type" F = some (str "posix") := by subst hF; rfl
    have f2 : field "mode" F = some (.uint mode) := by subst hF; rfl
    have f3 : field "uid" F = some (.uint uid) := by subst hF; rfl
    have f4 : field "gid" F = some (.uint gid) := by subst hF; rfl
    have f5 : field "atime" F = some A := by subst hF; rfl
    have f6 : field "mtime" F = some M := by subst hF; rfl
    have f7 : field? "size" F = some none := by subst hF; rfl
    simp only [Option.bind_eq_bind, Option.bind_some, pure, Option.map_some, if_true, if_false, f1, f2, f3, f4, f5, f6, f7, asSize, asText, str, asUint_uint _ _ h1, asUint_uint _ _ h2,
      asUint_uint _ _ h3, ha', hm', metaI64]
  | some n =>
    have e : asFields (.map ([str "type", str "posix", str "mode", .uint mode] ++ sizeField (some n) ++
        [str "uid", .uint uid, str "gid", .uint gid, str "atime", A, str "mtime", M]))
      = some [(ascii "type", str "posix"), (ascii "mode", .uint mode), (ascii "size", .uint n),
        (ascii "uid", .uint uid),
        (ascii "gid", .uint gid), (ascii "atime", A), (ascii "mtime", M)] := rfl
    rw [e]
    generalize hF : [(ascii "type", str "posix"), (ascii "mode", Cbor.uint mode),
      (ascii "size", Cbor.uint n),
      (ascii "uid", Cbor.uint uid), (ascii "gid", Cbor.uint gid), (ascii "atime", A),
      (ascii "mtime", M)] = F
    have f1 : field "type" F = some (str "posix") := by subst hF; rfl
    have f2 : field "mode" F = some (.uint mode) := by subst hF; rfl
    have f3 : field "uid" F = some (.uint uid) := by subst hF; rfl
    have f4 : field "gid" F = some (.uint gid) := by subst hF; rfl
    have f5 : field "atime" F = some A := by subst hF; rfl
    have f6 : field "mtime" F = some M := by subst hF; rfl
    have f7 : field? "size" F = some (some (.uint n)) := by subst hF; rfl
    simp only [Option.bind_eq_bind, Option.bind_some, pure, Option.map_some, if_true, if_false, f1, f2, f3, f4, f5, f6, f7, asSize, asText, str, asUint_uint _ _ h1, asUint_uint _ _ h2,
      asUint_uint _ _ h3, asUint_uint _ _ (h4 n rfl), ha', hm', metaI64]

theorem asMetadata_windows (w : WindowsMeta) (h : OkMetaNoTime (.windows w)) :
    asMetadata (metadata (.windows w)) = some (metaI64 (.windows w)) := by
  obtain ⟨h1, h4⟩ := h
  obtain ⟨attributes, size, ctime, atime, mtime⟩ := w
  simp only at h1 h4
  unfold asMetadata metadata
  simp only
  generalize hc : instantOption ctime = C
  generalize ha : instantOption atime = A
  generalize hm : instantOption mtime = M
  have hc' : asInstantOption C = some (ctime.map asI64) := by
    rw [← hc, asInstantOption_instantOption]
  have ha' : asInstantOption A = some (atime.map asI64) := by
    rw [← ha, asInstantOption_instantOption]
  have hm' : asInstantOption M = some (mtime.map asI64) := by
    rw [← hm, asInstantOption_instantOption]
  have hne : ¬ (ascii "windows" = ascii "posix") := by decide
  cases size with
  | none =>
    have e : asFields (.map ([str "type", str "windows", str "attributes", .uint attributes] ++
        sizeField none ++ [str "creation_time", C, str "access_time", A, str "write_time", M]))
      = some [(ascii "type", str "windows"), (ascii "attributes", .uint attributes),
        (ascii "creation_time", C), (ascii "access_time", A), (ascii "write_time", M)] := rfl
    rw [e]
    generalize hF : [(ascii "type", str "windows"), (ascii "attributes", Cbor.uint attributes),
        (ascii "creation_time", C), (ascii "access_time", A), (ascii "write_time", M)] = F
    have f1 : field "type" F = some (str "windows") := by subst hF; rfl
    have f2 : field "attributes" F = some (.uint attributes) := by subst hF; rfl
    have f3 : field "creation_time" F = some C := by subst hF; rfl
    have f4 : field "access_time" F = some A := by subst hF; rfl
    have f5 : field "write_time" F = some M := by subst hF; rfl
    have f7 : field? "size" F = some none := by subst hF; rfl
    simp only [Option.bind_eq_bind, Option.bind_some, pure, Option.map_some, if_true, if_false, f1, f2, f3, f4, f5, f7, asSize, asText, str, asUint_uint _ _ h1, hc', ha', hm', metaI64, hne]
  | some n =>
    have e : asFields (.map ([str "type", str "windows", str "attributes", .uint attributes] ++
        sizeField (some n) ++ [str "creation_time", C, str "access_time", A, str "write_time", M]))
      = some [(ascii "type", str "windows"), (ascii "attributes", .uint attributes),
        (ascii "size", .uint n),
        (ascii "creation_time", C), (ascii "access_time", A), (ascii "write_time", M)] := rfl
    rw [e]
    generalize hF : [(ascii "type", str "windows"), (ascii "attributes", Cbor.uint attributes),
        (ascii "size", Cbor.uint n),
        (ascii "creation_time", C), (ascii "access_time", A), (ascii "write_time", M)] = F
    have f1 : field "type" F = some (str "windows") := by subst hF; rfl
    have f2 : field "attributes" F = some (.uint attributes) := by subst hF; rfl
    have f3 : field "creation_time" F = some C := by subst hF; rfl
    have f4 : field "access_time" F = some A := by subst hF; rfl
    have f5 : field "write_time" F = some M := by subst hF; rfl
    have f7 : field? "size" F = some (some (.uint n)) := by subst hF; rfl
    simp only [Option.bind_eq_bind, Option.bind_some, pure, Option.map_some, if_true, if_false, f1, f2, f3, f4, f5, f7, asSize, asText, str, asUint_uint _ _ h1,
      asUint_uint _ _ (h4 n rfl), hc', ha', hm', metaI64, hne]

theorem asMetadata_metadata (m : Meta) (h : OkMetaNoTime m) :
    asMetadata (metadata m) = some (metaI64 m) := by
  cases m with
  | posix p => exact asMetadata_posix p h
  | windows w => exact asMetadata_windows w h

theorem asNode_node (n : Node ObjectId) (h : OkMetaNoTime n.md) :
    asNode (node n) = some ⟨n.contents, metaI64 n.md⟩ := by
  obtain ⟨c, m⟩ := n
  have hm := asMetadata_metadata m h
  unfold asNode node
  simp only
  generalize hM : metadata m = M
  rw [hM] at hm
  cases c with
  | file cs =>
    generalize hC : Cbor.arr (cs.map oid) = C
    have e : asFields (.mapI (contents (.file cs) ++ [str "metadata", M]))
      = some [(ascii "chunks", C), (ascii "metadata", M)] := by subst hC; rfl
    rw [e]
    have f1 : field "metadata" [(ascii "chunks", C), (ascii "metadata", M)] = some M := rfl
    have f2 : field "chunks" [(ascii "chunks", C), (ascii "metadata", M)] = some C := rfl
    have f3 : asArr C = some (cs.map oid) := by subst hC; rfl
    simp [f1, hm, asContents, f2, f3, mapM_map_id oid asOid _ (fun a _ => asOid_oid a)]
  | dir t =>
    generalize hC : oid t = C
    have e : asFields (.mapI (contents (.dir t) ++ [str "metadata", M]))
      = some [(ascii "tree", C), (ascii "metadata", M)] := by subst hC; rfl
    rw [e]
    have f1 : field "metadata" [(ascii "tree", C), (ascii "metadata", M)] = some M := rfl
    have f2 : field "chunks" [(ascii "tree", C), (ascii "metadata", M)] = none := rfl
    have f3 : field "tree" [(ascii "tree", C), (ascii "metadata", M)] = some C := rfl
    have f4 : asOid C = some t := by subst hC; simp
    simp [f1, hm, asContents, f2, f3, f4]
  | link t =>
    have e : asFields (.mapI (contents (.link t) ++ [str "metadata", M]))
      = some [(ascii "symlink", .text t), (ascii "metadata", M)] := rfl
    rw [e]
    have f1 : field "metadata" [(ascii "symlink", .text t), (ascii "metadata", M)] = some M := rfl
    have f2 : field "chunks" [(ascii "symlink", .text t), (ascii "metadata", M)] = none := rfl
    have f3 : field "tree" [(ascii "symlink", .text t), (ascii "metadata", M)] = none := rfl
    have f4 : field "symlink" [(ascii "symlink", .text t), (ascii "metadata", M)]
      = some (.text t) := rfl
    simp [f1, hm, asContents, f2, f3, f4, asText]

theorem asTreeEntries_flat (l : List (Name × Node ObjectId)) (h : ∀ p ∈ l, OkMetaNoTime p.2.md) :
    asTreeEntries (l.flatMap fun p => [.text p.1, node p.2])
      = some (l.map fun p => (p.1, ⟨p.2.contents, metaI64 p.2.md⟩)) := by
  induction l with
  | nil => rfl
  | cons p l ih =>
    rw [List.flatMap_cons]
    simp only [List.cons_append, List.nil_append, asTreeEntries]
    rw [asNode_node _ (h p (by simp)), ih (fun q hq => h q (List.mem_cons_of_mem _ hq))]
    simp [asText]

/-- A tree after a trip to disk: timestamps are reduced to 64 bits. -/
def treeI64 (t : Tree ObjectId) : Tree ObjectId :=
  t.map fun p => (p.1, ⟨p.2.contents, metaI64 p.2.md⟩)

theorem asTree_tree' (t : Tree ObjectId) (hs : BMap.Sorted t) (h : ∀ p ∈ t, OkMetaNoTime p.2.md) :
    asTree (tree t) = some (treeI64 t) := by
  unfold asTree tree
  simp only [asMapItems, Option.bind_eq_bind, Option.bind_some]
  rw [asTreeEntries_flat t h]
  have : BMap.Sorted (treeI64 t) := by
    unfold BMap.Sorted BMap.keys treeI64 at *
    rw [List.map_map]
    exact hs
  simp only [Option.bind_some, pure, Option.some.injEq]
  exact BMap.ofList_of_sorted this

theorem treeI64_of_ok {t : Tree ObjectId} (h : ∀ p ∈ t, OkMeta p.2.md) : treeI64 t = t := by
  unfold treeI64
  conv_rhs => rw [← List.map_id t]
  apply List.map_congr_left
  intro p hp
  obtain ⟨n, c, m⟩ := p
  simp [metaI64_of_ok (h _ hp)]

theorem asTree_tree (t : Tree ObjectId) (h : OkTree t) : asTree (tree t) = some t := by
  rw [asTree_tree' t h.sorted (fun p hp => (h.mds p hp).noTime), treeI64_of_ok h.mds]

/-! Paths -/

theorem pathOfText_append (n : Name) (h : 0x2f ∉ n) (rest : Bytes) :
    pathOfText (n ++ 0x2f :: rest) = n :: pathOfText rest := by
  induction n with
  | nil => simp [pathOfText]
  | cons b n ih =>
    have hb : b ≠ 0x2f := fun e => h (by simp [e])
    have := ih (fun hm => h (by simp [hm]))
    simp only [List.cons_append, pathOfText, if_neg hb, this]

theorem pathOfText_name (n : Name) (h : 0x2f ∉ n) : pathOfText n = [n] := by
  induction n with
  | nil => rfl
  | cons b n ih =>
    have hb : b ≠ 0x2f := fun e => h (by simp [e])
    simp only [pathOfText, if_neg hb, ih (fun hm => h (by simp [hm]))]

theorem pathOfText_pathText (p : Path) (h : OkPath p) : pathOfText (pathText p) = p := by
  obtain ⟨hne, hn⟩ := h
  induction p with
  | nil => exact absurd rfl hne
  | cons n p ih =>
    cases p with
    | nil => exact pathOfText_name n (hn n (by simp))
    | cons m p =>
      rw [pathText, pathOfText_append n (hn n (by simp)),
        ih (by simp) (fun x hx => hn x (List.mem_cons_of_mem _ hx))]
      simp

theorem asSnapshot_snapshot (s : Snapshot ObjectId) (h : OkSnapshot s) :
    asSnapshot (snapshot s) = some s := by
  obtain ⟨time, tz, author, tags, paths, tree⟩ := s
  obtain ⟨⟨ht1, ht2⟩, _, _, htags, _, _, hpaths, _, hpok⟩ := h
  simp only at ht1 ht2 htags hpaths hpok
  unfold asSnapshot snapshot
  simp only
  have hT : asInt (2 ^ 64) (int time) = some time := by
    apply asInt_int
    · have : (((2 : Nat) ^ 64 : Nat) : Int) = 2 ^ 64 := by norm_cast
      rw [this]; exact ht1
    · have : (((2 : Nat) ^ 64 : Nat) : Int) = 2 ^ 64 := by norm_cast
      rw [this]; exact ht2
  generalize int time = T at hT
  generalize hP : Cbor.arr (paths.map fun p => .text (pathText p)) = P
  generalize hR : oid tree = R
  have hR' : asOid R = some tree := by subst hR; simp
  have hP' : asArr P = some (paths.map fun p => .text (pathText p)) := by subst hP; rfl
  have hPP : (paths.map fun p => Cbor.text (pathText p)).mapM asText
      = some (paths.map pathText) := by
    apply mapM_map_some
    intro a _
    rfl
  have hPm : (paths.map pathText).map pathOfText = paths := by
    rw [List.map_map]
    conv_rhs => rw [← List.map_id paths]
    apply List.map_congr_left
    intro p hp
    exact pathOfText_pathText p (hpok p hp).1
  have hTag : (tags.map Cbor.text).mapM asText = some tags := mapM_map_id _ _ _ (fun _ _ => rfl)
  cases htg : tags with
  | nil =>
    have e : asFields (.map ([str "time", T, str "tz", .text tz, str "author", .text author] ++
        (if ([] : List Bytes).isEmpty then [] else [str "tags", .arr (([] : List Bytes).map .text)]) ++
        [str "paths", P, str "tree", R]))
      = some [(ascii "time", T), (ascii "tz", .text tz), (ascii "author", .text author),
        (ascii "paths", P), (ascii "tree", R)] := rfl
    rw [e]
    generalize hF : [(ascii "time", T), (ascii "tz", Cbor.text tz), (ascii "author", Cbor.text author),
        (ascii "paths", P), (ascii "tree", R)] = F
    have f1 : field "time" F = some T := by subst hF; rfl
    have f2 : field "tz" F = some (.text tz) := by subst hF; rfl
    have f3 : field "author" F = some (.text author) := by subst hF; rfl
    have f4 : field "paths" F = some P := by subst hF; rfl
    have f5 : field "tree" F = some R := by subst hF; rfl
    have f6 : field? "tags" F = some none := by subst hF; rfl
    simp only [Option.bind_eq_bind, Option.bind_some, f1, f2, f3, f4, f5, f6, hT, hR', hP', hPP,
      asText, pure, hPm]
    rw [BSet.ofList_of_sorted hpaths]
    rfl
  | cons t ts =>
    subst htg
    generalize hG : Cbor.arr ((t :: ts).map .text) = G
    have hG' : asArr G = some ((t :: ts).map .text) := by subst hG; rfl
    have e : asFields (.map ([str "time", T, str "tz", .text tz, str "author", .text author] ++
        (if (t :: ts).isEmpty then [] else [str "tags", G]) ++
        [str "paths", P, str "tree", R]))
      = some [(ascii "time", T), (ascii "tz", .text tz), (ascii "author", .text author),
        (ascii "tags", G), (ascii "paths", P), (ascii "tree", R)] := rfl
    rw [e]
    generalize hF : [(ascii "time", T), (ascii "tz", Cbor.text tz), (ascii "author", Cbor.text author),
        (ascii "tags", G), (ascii "paths", P), (ascii "tree", R)] = F
    have f1 : field "time" F = some T := by subst hF; rfl
    have f2 : field "tz" F = some (.text tz) := by subst hF; rfl
    have f3 : field "author" F = some (.text author) := by subst hF; rfl
    have f4 : field "paths" F = some P := by subst hF; rfl
    have f5 : field "tree" F = some R := by subst hF; rfl
    have f6 : field? "tags" F = some (some G) := by subst hF; rfl
    simp only [Option.bind_eq_bind, Option.bind_some, f1, f2, f3, f4, f5, f6, hT, hR', hP', hPP,
      asText, pure, hPm, hG', hTag]
    rw [BSet.ofList_of_sorted hpaths, BSet.ofList_of_sorted htags]

/-! Everything the types produce is encodable. -/

theorem ok_str (d : Nat) (s : String) (h : (ascii s).length < 2 ^ 64) : Ok (d + 1) (str s) := h

theorem ok_oid (d : Nat) (i : ObjectId) : Ok (d + 1) (oid i) := by
  unfold oid; rw [Ok, i.len]; omega

theorem ok_int (d : Nat) (t : Int) (h1 : -2 ^ 64 ≤ t) (h2 : t < 2 ^ 64) : Ok (d + 1) (int t) := by
  unfold int
  split
  · rw [Ok]; omega
  · rw [Ok]; omega

theorem ok_instant (d : Nat) (t : Int) : Ok (d + 1) (instant t) := by
  have := asI64_in t
  unfold InI64 at this
  exact ok_int d _ (by omega) (by omega)

theorem ok_instantOption (d : Nat) (t : Option Int) : Ok (d + 1) (instantOption t) := by
  cases t with
  | none => trivial
  | some t => exact ok_instant d t

theorem ok_kind (d : Nat) (k : Kind) : Ok (d + 1) (kind k) := by
  cases k <;> exact ok_str _ _ (by decide)

theorem ok_entry (d : Nat) (e : Entry ObjectId) (h : e.length < 2 ^ 32) : Ok (d + 2) (entry e) := by
  unfold entry
  rw [Ok]
  refine ⟨by simp, by simp, ?_⟩
  simp only [Oks, and_true]
  exact ⟨ok_str _ _ (by decide), ok_kind _ _, ok_str _ _ (by decide), by rw [Ok]; omega,
    ok_str _ _ (by decide), ok_oid _ _⟩

theorem ok_manifest (d : Nat) (m : Manifest ObjectId) (h : OkManifest m) :
    Ok (d + 3) (manifest m) := by
  unfold manifest
  rw [Ok]
  refine ⟨by simpa using h.1, ?_⟩
  apply Oks_of_mem
  intro v hv
  obtain ⟨e, he, rfl⟩ := List.mem_map.mp hv
  exact ok_entry d e (h.2 e he)

theorem length_flatMap_pair {α β : Type} (f g : α → β) (l : List α) :
    (l.flatMap fun p => [f p, g p]).length = 2 * l.length := by
  induction l with
  | nil => rfl
  | cons a l ih => rw [List.flatMap_cons, List.length_append, ih]; simp; omega

theorem ok_index (d : Nat) (i : Index ObjectId) (h : OkIndex i) : Ok (d + 5) (index i) := by
  unfold index
  rw [Ok]
  refine ⟨by simp, by simp, ?_⟩
  simp only [Oks, and_true]
  refine ⟨ok_str _ _ (by decide), ?_, ok_str _ _ (by decide), ?_⟩
  · rw [Ok]
    refine ⟨by simpa using h.sup_len, Oks_of_mem ?_⟩
    intro v hv
    obtain ⟨e, he, rfl⟩ := List.mem_map.mp hv
    exact ok_oid _ _
  · rw [Ok, length_flatMap_pair]
    refine ⟨by omega, by have := h.packs_len; omega, Oks_of_mem ?_⟩
    intro v hv
    obtain ⟨p, hp, hv⟩ := List.mem_flatMap.mp hv
    simp only [List.mem_cons, List.not_mem_nil, or_false] at hv
    rcases hv with rfl | rfl
    · exact ok_oid _ _
    · exact ok_manifest d _ (h.manifests p hp)

theorem Oks_append {d : Nat} {a b : List Cbor} : Oks d (a ++ b) ↔ Oks d a ∧ Oks d b := by
  induction a with
  | nil => simp [Oks]
  | cons v a ih => simp only [List.cons_append, Oks, ih, and_assoc]

theorem ok_sizeField (d : Nat) (o : Option Nat) (h : ∀ n, o = some n → n < 2 ^ 64) :
    Oks (d + 1) (sizeField o) := by
  cases o with
  | none => simp [sizeField, Oks]
  | some n =>
    simp only [sizeField, Oks, and_true]
    exact ⟨ok_str _ _ (by decide), h n rfl⟩

theorem length_sizeField (o : Option Nat) : (sizeField o).length = 0 ∨ (sizeField o).length = 2 := by
  cases o <;> simp [sizeField]

theorem ok_metadata (d : Nat) (m : Meta) (h : OkMetaNoTime m) : Ok (d + 2) (metadata m) := by
  cases m with
  | posix p =>
    obtain ⟨h1, h2, h3, h4⟩ := h
    unfold metadata
    simp only
    rw [Ok]
    have hl := length_sizeField p.size
    refine ⟨?_, ?_, ?_⟩
    · simp only [List.length_append, List.length_cons, List.length_nil]; omega
    · simp only [List.length_append, List.length_cons, List.length_nil]; omega
    · rw [Oks_append, Oks_append]
      refine ⟨⟨?_, ok_sizeField _ _ h4⟩, ?_⟩
      · simp only [Oks, and_true]
        exact ⟨ok_str _ _ (by decide), ok_str _ _ (by decide), ok_str _ _ (by decide), by rw [Ok]; omega⟩
      · simp only [Oks, and_true]
        exact ⟨ok_str _ _ (by decide), by rw [Ok]; omega, ok_str _ _ (by decide), by rw [Ok]; omega,
          ok_str _ _ (by decide), ok_instant _ _, ok_str _ _ (by decide), ok_instant _ _⟩
  | windows w =>
    obtain ⟨h1, h4⟩ := h
    unfold metadata
    simp only
    rw [Ok]
    have hl := length_sizeField w.size
    refine ⟨?_, ?_, ?_⟩
    · simp only [List.length_append, List.length_cons, List.length_nil]; omega
    · simp only [List.length_append, List.length_cons, List.length_nil]; omega
    · rw [Oks_append, Oks_append]
      refine ⟨⟨?_, ok_sizeField _ _ h4⟩, ?_⟩
      · simp only [Oks, and_true]
        exact ⟨ok_str _ _ (by decide), ok_str _ _ (by decide), ok_str _ _ (by decide), by rw [Ok]; omega⟩
      · simp only [Oks, and_true]
        exact ⟨ok_str _ _ (by decide), ok_instantOption _ _, ok_str _ _ (by decide),
          ok_instantOption _ _, ok_str _ _ (by decide), ok_instantOption _ _⟩

theorem ok_contents (d : Nat) (c : Contents ObjectId) (h : OkContents c) :
    Oks (d + 2) (contents c) ∧ (contents c).length = 2 := by
  cases c with
  | file cs =>
    refine ⟨?_, rfl⟩
    simp only [contents, Oks, and_true]
    refine ⟨ok_str _ _ (by decide), ?_⟩
    rw [Ok]
    refine ⟨by rw [List.length_map]; exact h, Oks_of_mem ?_⟩
    intro v hv
    obtain ⟨e, he, rfl⟩ := List.mem_map.mp hv
    exact ok_oid _ _
  | dir t =>
    refine ⟨?_, rfl⟩
    simp only [contents, Oks, and_true]
    exact ⟨ok_str _ _ (by decide), ok_oid _ _⟩
  | link t =>
    refine ⟨?_, rfl⟩
    simp only [contents, Oks, and_true]
    exact ⟨ok_str _ _ (by decide), h⟩

theorem ok_node (d : Nat) (n : Node ObjectId) (hc : OkContents n.contents) (hm : OkMetaNoTime n.md) :
    Ok (d + 3) (node n) := by
  unfold node
  rw [Ok]
  obtain ⟨h1, h2⟩ := ok_contents d n.contents hc
  refine ⟨by simp [h2], ?_⟩
  rw [Oks_append]
  refine ⟨h1, ?_⟩
  simp only [Oks, and_true]
  exact ⟨ok_str _ _ (by decide), ok_metadata d _ hm⟩

theorem ok_tree (d : Nat) (t : Tree ObjectId) (hl : t.length < 2 ^ 64)
    (hn : ∀ p ∈ t, p.1.length < 2 ^ 64) (hc : ∀ p ∈ t, OkContents p.2.contents)
    (hm : ∀ p ∈ t, OkMetaNoTime p.2.md) : Ok (d + 4) (tree t) := by
  unfold tree
  rw [Ok, length_flatMap_pair]
  refine ⟨by omega, by omega, Oks_of_mem ?_⟩
  intro v hv
  obtain ⟨p, hp, hv⟩ := List.mem_flatMap.mp hv
  simp only [List.mem_cons, List.not_mem_nil, or_false] at hv
  rcases hv with rfl | rfl
  · exact hn p hp
  · exact ok_node d _ (hc p hp) (hm p hp)

theorem ok_snapshot (d : Nat) (s : Snapshot ObjectId) (h : OkSnapshot s) :
    Ok (d + 3) (snapshot s) := by
  unfold snapshot
  rw [Ok]
  have hl : (if s.tags.isEmpty then ([] : List Cbor)
      else [str "tags", .arr (s.tags.map .text)]).length = 0 ∨
      (if s.tags.isEmpty then ([] : List Cbor)
      else [str "tags", .arr (s.tags.map .text)]).length = 2 := by
    split <;> simp
  refine ⟨?_, ?_, ?_⟩
  · simp only [List.length_append, List.length_cons, List.length_nil]; omega
  · simp only [List.length_append, List.length_cons, List.length_nil]; omega
  · rw [Oks_append, Oks_append]
    refine ⟨⟨?_, ?_⟩, ?_⟩
    · simp only [Oks, and_true]
      exact ⟨ok_str _ _ (by decide), ok_int _ _ h.time.1 h.time.2, ok_str _ _ (by decide), h.tz,
        ok_str _ _ (by decide), h.author⟩
    · split
      · simp [Oks]
      · simp only [Oks, and_true]
        refine ⟨ok_str _ _ (by decide), ?_⟩
        rw [Ok]
        refine ⟨by simpa using h.tags_len, Oks_of_mem ?_⟩
        intro v hv
        obtain ⟨e, he, rfl⟩ := List.mem_map.mp hv
        exact h.tag_len e he
    · simp only [Oks, and_true]
      refine ⟨ok_str _ _ (by decide), ?_, ok_str _ _ (by decide), ok_oid _ _⟩
      rw [Ok]
      refine ⟨by simpa using h.paths_len, Oks_of_mem ?_⟩
      intro v hv
      obtain ⟨e, he, rfl⟩ := List.mem_map.mp hv
      exact (h.path_ok e he).2

theorem read_enc {α : Type} (f : Cbor → Option α) (v : Cbor) (a : α) (rest : Bytes)
    (hok : Ok limit v) (hf : f v = some a) : read f (enc v ++ rest) = some (a, rest) := by
  unfold read
  rw [dec_enc _ _ hok]
  simp [hf]

end Backpak.Serde
