import Verif.Lemmas.Source
import Verif.Lemmas.Run
import Verif.Spec.Demo
import Mathlib.Data.List.Infix

/-!
# Deciding things about a given repository

For examples only: functions that, when they return `true` for a given repository, show that it is
in good order, what it holds, or that a snapshot cannot be read.
-/

namespace Backpak.Check

open Spec Pipeline

variable {Id : Type} [LinearOrder Id]

/-- The packs the live indexes list. -/
def listed (R : Repo Id) : List (Id × Manifest Id) :=
  (R.indexes.filter (fun e => !R.indexes.any (fun f => decide (e.1 ∈ f.2.supersedes)))).flatMap
    (fun e => e.2.packs)

theorem mem_listed {R : Repo Id} {p : Id} {m : Manifest Id} :
    (p, m) ∈ listed R ↔ Listed R.indexes p m := by
  unfold listed Listed LiveIndex Superseded
  simp only [List.mem_flatMap, List.mem_filter, Bool.not_eq_true', List.any_eq_false, decide_eq_true_eq]
  constructor
  · rintro ⟨⟨i, x⟩, ⟨h1, h2⟩, h3⟩
    exact ⟨i, x, ⟨h1, fun ⟨j, y, h4, h5⟩ => h2 (j, y) h4 h5⟩, h3⟩
  · rintro ⟨i, x, ⟨h1, h2⟩, h3⟩
    exact ⟨(i, x), ⟨h1, fun f hf hi => h2 ⟨f.1, f.2, hf, hi⟩⟩, h3⟩

/-- Their packs that are there. -/
def packs (R : Repo Id) : List (Id × Pack Id) :=
  R.packs.filter (fun e => decide ((e.1, Pack.manifestOf e.2) ∈ listed R))

/-- The blobs in them. -/
def blobs (R : Repo Id) : List (Blob Id) := (packs R).flatMap Prod.snd

theorem mem_packs {R : Repo Id} {p : Id} {bs : Pack Id} :
    (p, bs) ∈ packs R ↔ Listed R.indexes p (Pack.manifestOf bs) ∧ (p, bs) ∈ R.packs := by
  unfold packs
  rw [List.mem_filter, decide_eq_true_eq, mem_listed, and_comm]

theorem mem_blobs {R : Repo Id} {b : Blob Id} :
    b ∈ blobs R ↔ ∃ p bs, Listed R.indexes p (Pack.manifestOf bs) ∧ (p, bs) ∈ R.packs ∧ b ∈ bs := by
  unfold blobs
  rw [List.mem_flatMap]
  constructor
  · rintro ⟨⟨p, bs⟩, h1, h2⟩
    exact ⟨p, bs, (mem_packs.mp h1).1, (mem_packs.mp h1).2, h2⟩
  · rintro ⟨p, bs, h1, h2, h3⟩
    exact ⟨(p, bs), mem_packs.mpr ⟨h1, h2⟩, h3⟩

theorem has_iff {C : Codec Id} {R : Repo Id} {b : Blob Id} :
    Has C R b ↔ C.hash b.data = b.id ∧ b ∈ blobs R := by
  rw [mem_blobs]; rfl

/-- Times in range. -/
def okTime (t : Int) : Bool := decide (-2 ^ 63 ≤ t) && decide (t < 2 ^ 63)

def okMeta : Meta → Bool
  | .posix p => decide (p.mode < 2 ^ 32) && decide (p.uid < 2 ^ 32) && decide (p.gid < 2 ^ 32) &&
      (p.size.all fun n => decide (n < 2 ^ 64)) && okTime p.atime && okTime p.mtime
  | .windows _ => false

theorem okMeta_sound {m : Meta} (h : okMeta m = true) : Serde.OkMeta m := by
  cases m with
  | windows w => cases h
  | posix p =>
    simp only [okMeta, okTime, Bool.and_eq_true, decide_eq_true_eq] at h
    obtain ⟨⟨⟨⟨⟨h1, h2⟩, h3⟩, h4⟩, h5⟩, h6⟩ := h
    refine ⟨h1, h2, h3, ?_, h5, h6⟩
    intro n hn
    rw [hn] at h4
    simpa only [Option.all, decide_eq_true_eq] using h4

def okContents : Contents Id → Bool
  | .file cs => decide (cs.length < 2 ^ 64)
  | .dir _ => true
  | .link t => decide (t.length < 2 ^ 64)

theorem okContents_sound {c : Contents Id} (h : okContents c = true) : Serde.OkContents c := by
  cases c with
  | file cs => simp only [okContents, decide_eq_true_eq] at h; exact h
  | dir _ => trivial
  | link t => simp only [okContents, decide_eq_true_eq] at h; exact h

def okTree (t : Tree Id) : Bool :=
  decide ((BMap.keys t).Pairwise (· < ·)) && decide (t.length < 2 ^ 64) &&
  t.all (fun e => decide (e.1.length < 2 ^ 64) && okContents e.2.contents && okMeta e.2.md)

theorem okTree_sound {t : Tree Id} (h : okTree t = true) : Serde.OkTree t := by
  simp only [okTree, Bool.and_eq_true, decide_eq_true_eq, List.all_eq_true] at h
  obtain ⟨⟨h1, h2⟩, h3⟩ := h
  exact ⟨h1, h2, fun e he => (h3 e he).1.1, fun e he => okContents_sound (h3 e he).1.2,
    fun e he => okMeta_sound (h3 e he).2⟩

/-- The bytes of a blob. -/
def blobAt (R : Repo Id) (k : Kind) (i : Id) : Option Bytes :=
  ((blobs R).find? (fun b => decide (b.kind = k ∧ b.id = i))).map Blob.data

theorem blobAt_has {C : Codec Id} {R : Repo Id} {k : Kind} {i : Id} {x : Bytes}
    (h : blobAt R k i = some x) (hh : C.hash x = i) : Has C R ⟨x, i, k⟩ := by
  unfold blobAt at h
  cases hf : (blobs R).find? (fun b => decide (b.kind = k ∧ b.id = i)) with
  | none => rw [hf] at h; cases h
  | some b =>
    rw [hf] at h
    cases h
    have h1 := List.find?_some hf
    simp only [decide_eq_true_eq] at h1
    obtain ⟨rfl, rfl⟩ := h1
    exact has_iff.mpr ⟨hh, List.mem_of_find?_eq_some hf⟩

/-- A file's bytes. -/
def fileAt (C : Codec Id) (R : Repo Id) : List Id → Option Bytes
  | [] => some []
  | c :: cs =>
    match blobAt R .chunk c, fileAt C R cs with
    | some x, some y => if C.hash x = c then some (x ++ y) else none
    | _, _ => none

theorem fileAt_sound {C : Codec Id} {R : Repo Id} (cs : List Id) : ∀ {x}, fileAt C R cs = some x →
    FileHolds C R cs x := by
  induction cs with
  | nil => intro x h; cases h; exact .nil
  | cons c cs ih =>
    intro x h
    unfold fileAt at h
    split at h
    · rename_i x' y hx hy
      split at h
      · cases h
        exact .cons (blobAt_has hx (by assumption)) (ih hy)
      · cases h
    · cases h

/-- The tree under an ID. -/
def treeAt (C : Codec Id) (R : Repo Id) (i : Id) : Option (Tree Id) :=
  if i = C.emptyId then some []
  else
    match blobAt R .tree i with
    | none => none
    | some x =>
      match C.decTree x with
      | some (t, []) => if okTree t = true ∧ C.encTree t = x ∧ C.hash x = i then some t else none
      | _ => none

theorem treeAt_sound {C : Codec Id} {R : Repo Id} {i : Id} {t : Tree Id} (h : treeAt C R i = some t) :
    TreeAt C R i t := by
  unfold treeAt at h
  split at h
  · rename_i he
    cases h
    exact ⟨⟨List.Pairwise.nil, by simp, by simp, by simp, by simp⟩, he.symm, .inl rfl⟩
  · split at h
    · cases h
    · rename_i x hx
      split at h
      · split at h
        · rename_i hc
          cases h
          obtain ⟨h1, h2, h3⟩ := hc
          exact ⟨okTree_sound h1, by rw [h2]; exact h3, .inr (by rw [h2]; exact blobAt_has hx h3)⟩
        · cases h
      · cases h

/-- What the nodes of a tree stand for, given what subtrees do. -/
def nodesAt (C : Codec Id) (R : Repo Id) (down : Id → Option (Dir Bytes)) : Tree Id → Option (Dir Bytes)
  | [] => some .nil
  | (n, ⟨.file cs, md⟩) :: t =>
    match fileAt C R cs, nodesAt C R down t with
    | some x, some d => some (.leaf n md (.file x) d)
    | _, _ => none
  | (n, ⟨.link tgt, md⟩) :: t =>
    match nodesAt C R down t with
    | some d => some (.leaf n md (.link tgt) d)
    | none => none
  | (n, ⟨.dir i, md⟩) :: t =>
    match down i, nodesAt C R down t with
    | some s, some d => some (.dir n md s d)
    | _, _ => none

/-- What an ID stands for. -/
def dirAt (C : Codec Id) (R : Repo Id) : Nat → Id → Option (Dir Bytes)
  | 0, _ => none
  | k + 1, i => (treeAt C R i).bind (nodesAt C R (dirAt C R k))

theorem nodesAt_sound {C : Codec Id} {R : Repo Id} {down : Id → Option (Dir Bytes)}
    (hd : ∀ i d, down i = some d → Holds C R i d) (t : Tree Id) :
    ∀ {d}, nodesAt C R down t = some d → DirHolds C R t d := by
  induction t with
  | nil => intro d h; cases h; exact .nil
  | cons e t ih =>
    intro d h
    obtain ⟨n, c, md⟩ := e
    cases c with
    | file cs =>
      unfold nodesAt at h
      split at h
      · rename_i x d' hx hd'
        cases h
        exact .file (fileAt_sound _ hx) (ih hd')
      · cases h
    | link tgt =>
      unfold nodesAt at h
      split at h
      · rename_i d' hd'
        cases h
        exact .link (ih hd')
      · cases h
    | dir i =>
      unfold nodesAt at h
      split at h
      · rename_i s d' hs hd'
        cases h
        obtain ⟨t', h1, h2⟩ := hd _ _ hs
        exact .dir h1 h2 (ih hd')
      · cases h

theorem dirAt_sound {C : Codec Id} {R : Repo Id} (k : Nat) : ∀ {i d}, dirAt C R k i = some d →
    Holds C R i d := by
  induction k with
  | zero => intro i d h; cases h
  | succ k ih =>
    intro i d h
    unfold dirAt at h
    rw [Option.bind_eq_some_iff] at h
    obtain ⟨t, h1, h2⟩ := h
    exact ⟨t, treeAt_sound h1, nodesAt_sound (fun i d h => ih h) t h2⟩

/-- All blobs of a pack are of one kind. -/
def oneKind (m : Manifest Id) : Bool :=
  m.all (fun e => decide (e.kind = .chunk)) || m.all (fun e => decide (e.kind = .tree))

/-- What a stored blob must be. -/
def okBlob (C : Codec Id) (b : Blob Id) : Bool :=
  decide (C.hash b.data = b.id) && !b.data.isEmpty &&
  (decide (b.kind ≠ .tree) ||
    match C.decTree b.data with
    | some (t, []) => okTree t && decide (C.encTree t = b.data) && (decide (b.id ≠ C.emptyId) || t.isEmpty)
    | _ => false)

theorem okBlob_sound {C : Codec Id} {b : Blob Id} (h : okBlob C b = true) :
    C.hash b.data = b.id ∧ b.data ≠ [] ∧ (b.kind = .tree → ∃ t, Serde.OkTree t ∧ b.data = C.encTree t ∧
      (b.id = C.emptyId → t = [])) := by
  simp only [okBlob, Bool.and_eq_true, decide_eq_true_eq, Bool.or_eq_true, Bool.not_eq_true'] at h
  obtain ⟨⟨h1, h2⟩, h3⟩ := h
  refine ⟨h1, by simpa using h2, fun hk => ?_⟩
  rcases h3 with h3 | h3
  · exact absurd hk h3
  · split at h3
    · rename_i t _
      simp only [Bool.and_eq_true, decide_eq_true_eq, Bool.or_eq_true, List.isEmpty_iff] at h3
      obtain ⟨⟨h4, h5⟩, h6⟩ := h3
      exact ⟨t, okTree_sound h4, h5.symm, fun he => h6.resolve_left (fun h => h he)⟩
    · cases h3

/-- A repository in good order whose trees are at most `k` deep. -/
def healthy (C : Codec Id) (ids : Ids Id) (k : Nat) (R : Repo Id) : Bool :=
  decide ((BMap.keys R.packs).Pairwise (· < ·)) &&
  decide ((BMap.keys R.indexes).Pairwise (· < ·)) &&
  decide ((BMap.keys R.snapshots).Pairwise (· < ·)) &&
  R.packs.all (fun e => decide (e.1 = ids.packId (Pack.manifestOf e.2))) &&
  R.indexes.all (fun e => decide (e.1 = ids.indexId e.2) && decide ((BMap.keys e.2.packs).Pairwise (· < ·))) &&
  (listed R).all (fun e => R.packs.any (fun f => decide (f.1 = e.1 ∧ Pack.manifestOf f.2 = e.2)) &&
    decide (e.2.map Entry.id).Nodup && oneKind e.2 &&
    (listed R).all (fun e' => decide (e.1 = e'.1) ||
      e.2.all (fun a => e'.2.all (fun b => decide (a.id ≠ b.id))))) &&
  (blobs R).all (okBlob C) &&
  R.snapshots.all (fun e => (dirAt C R k e.2.tree).isSome)

theorem healthy_sound {C : Codec Id} {ids : Ids Id} {k : Nat} {R : Repo Id}
    (h : healthy C ids k R = true) : Healthy C ids R := by
  simp only [healthy, Bool.and_eq_true, decide_eq_true_eq, List.all_eq_true] at h
  obtain ⟨⟨⟨⟨⟨⟨⟨h1, h2⟩, h3⟩, h4⟩, h5⟩, h6⟩, h7⟩, h8⟩ := h
  have hb : ∀ p bs b, Listed R.indexes p (Pack.manifestOf bs) → (p, bs) ∈ R.packs → b ∈ bs → b ∈ blobs R :=
    fun p bs b a b' c => mem_blobs.mpr ⟨p, bs, a, b', c⟩
  refine ⟨h1, h2, h3, fun p bs hm => h4 (p, bs) hm, fun i x hm => (h5 (i, x) hm).1,
    fun i x hm => (h5 (i, x) hm).2, ?_, ?_, ?_, ?_, ?_, ?_, ?_, ?_⟩
  · intro p m hl
    have := (h6 (p, m) (mem_listed.mpr hl)).1.1.1
    rw [List.any_eq_true] at this
    obtain ⟨⟨q, bs⟩, hm, hq⟩ := this
    simp only [decide_eq_true_eq] at hq
    obtain ⟨rfl, rfl⟩ := hq
    exact ⟨bs, hm, rfl⟩
  · intro p m hl
    exact (h6 (p, m) (mem_listed.mpr hl)).1.1.2
  · intro p m p' m' e e' hl hl' he he' heq
    have := (h6 (p, m) (mem_listed.mpr hl)).2 (p', m') (mem_listed.mpr hl')
    simp only [Bool.or_eq_true, decide_eq_true_eq, List.all_eq_true] at this
    rcases this with h | h
    · exact h
    · exact absurd heq (h e he e' he')
  · intro p m hl
    have := (h6 (p, m) (mem_listed.mpr hl)).1.2
    simp only [oneKind, Bool.or_eq_true, List.all_eq_true, decide_eq_true_eq] at this
    rcases this with h | h
    · exact ⟨_, h⟩
    · exact ⟨_, h⟩
  · exact fun p bs b a b' c => (okBlob_sound (h7 b (hb p bs b a b' c))).1
  · exact fun p bs b a b' c => (okBlob_sound (h7 b (hb p bs b a b' c))).2.2
  · exact fun p bs b a b' c => (okBlob_sound (h7 b (hb p bs b a b' c))).2.1
  · intro i s hm
    have := h8 (i, s) hm
    obtain ⟨d, hd⟩ := Option.isSome_iff_exists.mp this
    exact ⟨d, dirAt_sound k hd⟩

/-- A repository, opened. -/
def opened (R : Repo Id) : Source Id :=
  match Index.buildMaster (R.indexes.map fun e => (e.1, .ok e.2)) with
  | .ok x =>
    match Index.blobToPack x with
    | .ok bm => sourceOf R x bm
    | .error _ => sourceOf R x []
  | .error _ => sourceOf R Index.empty []

theorem opened_opens {C : Codec Id} {ids : Ids Id} {R : Repo Id} (h : Healthy C ids R) :
    Opens R (opened R) := by
  obtain ⟨x, bm, h1, h2, h3⟩ := opens_with h.sound
  unfold opened
  simp only [h1, h2]
  exact h3

/-- A snapshot whose root is not there cannot be read. -/
theorem no_root {C : Codec Id} {R : Repo Id} {s : Snapshot Id} (h1 : s.tree ≠ C.emptyId)
    (h2 : ∀ b, Has C R b → b.kind = .tree → b.id ≠ s.tree) : ¬ Readable C R s := by
  rintro ⟨d, t, ⟨_, h3, h4⟩, _⟩
  rcases h4 with rfl | h4
  · exact h1 h3.symm
  · exact h2 _ h4 rfl rfl

/-- Nor one whose root lists a chunk that is not there. -/
theorem no_chunk {C : Codec Id} {R : Repo Id} {s : Snapshot Id} {t : Tree Id} {n : Name} {cs : List Id}
    {md : Meta} {c : Id} (h0 : C.decTree (C.encTree t) = some (t, [])) (h1 : s.tree ≠ C.emptyId)
    (h2 : ∀ b, Has C R b → b.kind = .tree → b.id = s.tree → b.data = C.encTree t)
    (h3 : (n, ⟨.file cs, md⟩) ∈ t) (h4 : c ∈ cs)
    (h5 : ∀ b, Has C R b → b.kind = .chunk → b.id ≠ c) : ¬ Readable C R s := by
  rintro ⟨d, t', ⟨hok, h6, h7⟩, hd⟩
  have ht : t' = t := by
    rcases h7 with rfl | h7
    · exact absurd h6.symm h1
    · have := h2 _ h7 rfl rfl
      have h8 := C.dec_enc t' hok
      simp only at this
      rw [this, h0] at h8
      cases h8
      rfl
  subst ht
  have file : ∀ cs x, FileHolds C R cs x → c ∉ cs := by
    intro cs x hf
    induction hf with
    | nil => simp
    | cons hh _ ih =>
      rw [List.mem_cons]
      rintro (rfl | h)
      · exact h5 _ hh rfl rfl
      · exact ih h
  clear h0 h2 h6 h7 hok
  induction hd with
  | nil => cases h3
  | file hf _ ih =>
    rcases List.mem_cons.mp h3 with h | h
    · cases h; exact file _ _ hf h4
    · exact ih h
  | link _ ih =>
    rcases List.mem_cons.mp h3 with h | h
    · cases h
    · exact ih h
  | dir _ _ _ _ ih =>
    rcases List.mem_cons.mp h3 with h | h
    · cases h
    · exact ih h

/-- All runs of consecutive elements. -/
def infixes {A : Type} (l : List A) : List (List A) := l.tails.flatMap List.inits

theorem mem_infixes {A : Type} {l m : List A} (h : m <:+: l) : m ∈ infixes l := by
  obtain ⟨a, b, rfl⟩ := h
  refine List.mem_flatMap.mpr ⟨m ++ b, ?_, ?_⟩
  · rw [List.mem_tails]; exact ⟨a, by simp⟩
  · rw [List.mem_inits]; exact ⟨b, rfl⟩

/-- Every pack a run could involve. -/
def involved (w : World Id) (main : List (Op Id)) : List (Pack Id) :=
  w.repo.packs.map Prod.snd ++ w.cwd.packs.map Prod.snd ++
    (infixes (ofKind .chunk (sends main)) ++ infixes (ofKind .tree (sends main)))

omit [LinearOrder Id] in
theorem mem_involved {w : World Id} {main : List (Op Id)} {a : Pack Id} (h : Involved w main a) :
    a ∈ involved w main := by
  unfold involved
  rcases h with ⟨p, h⟩ | ⟨p, h⟩ | ⟨_, k, h⟩
  · exact List.mem_append_left _ (List.mem_append_left _ (List.mem_map.mpr ⟨_, h, rfl⟩))
  · exact List.mem_append_left _ (List.mem_append_right _ (List.mem_map.mpr ⟨_, h, rfl⟩))
  · refine List.mem_append_right _ ?_
    cases k
    · exact List.mem_append_left _ (mem_infixes h)
    · exact List.mem_append_right _ (mem_infixes h)

def packsDiffer (ids : Ids Id) (w : World Id) (main : List (Op Id)) : Bool :=
  (involved w main).all (fun a => (involved w main).all (fun b =>
    decide (ids.packId (Pack.manifestOf a) ≠ ids.packId (Pack.manifestOf b)) || decide (a = b)))

theorem packsDiffer_sound {ids : Ids Id} {w : World Id} {main : List (Op Id)}
    (h : packsDiffer ids w main = true) : PacksDiffer ids w main := by
  intro a b ha hb heq
  simp only [packsDiffer, List.all_eq_true, Bool.or_eq_true, decide_eq_true_eq] at h
  exact (h a (mem_involved ha) b (mem_involved hb)).resolve_left (fun h => h heq)

end Backpak.Check
