import Verif.Model.Walk
import Verif.Spec.Walk
import Verif.Lemmas.Source
import Verif.Props.C10

/-! Lemmas about the filesystem walk of a backup. -/

namespace Backpak

open Spec

variable {Id : Type} [LinearOrder Id]

/-! ## The walk does not depend on what is already packed -/

/-- The backup's visitor with the sending of blobs left open. -/
def sendVisitor {S : Type} (put : S → Blob Id → S) (C : Codec Id) (cut : Bytes → Nat) :
    Visitor Id Id (Tree Id) S where
  init := []
  visit t n md prev e s :=
    match e with
    | .dir sub => (addNode t n ⟨.dir sub, md⟩).map (fun t' => (t', s))
    | .link target => (addNode t n ⟨.link target, md⟩).map (fun t' => (t', s))
    | .unchanged =>
      if md.size = none then .error (.panic "files have sizes")
      else
        match prev with
        | none => .error (.panic "called `Option::unwrap()` on a `None` value")
        | some p => (addNode t n ⟨p.contents, md⟩).map (fun t' => (t', s))
    | .changed data =>
      let chunks := Chunk.chunkFile C.hash cut data
      (addNode t n ⟨.file (chunks.map Blob.id), md⟩).map (fun t' => (t', chunks.foldl put s))
  finalize t s :=
    if t = [] then .ok (C.emptyId, s)
    else
      let bytes := C.encTree t
      .ok (C.hash bytes, put s ⟨bytes, C.hash bytes, .tree⟩)

/-- A visitor that notes every blob, in order. -/
def noteVisitor (C : Codec Id) (cut : Bytes → Nat) : Visitor Id Id (Tree Id) (List (Blob Id)) :=
  sendVisitor (fun l b => l ++ [b]) C cut

theorem backupVisitor_eq (C : Codec Id) (cut : Bytes → Nat) :
    backupVisitor C cut = sendVisitor offer C cut := rfl

theorem foldl_note (l m : List (Blob Id)) : m.foldl (fun l b => l ++ [b]) l = l ++ m := by
  induction m generalizing l with
  | nil => simp
  | cons b m ih => rw [List.foldl_cons, ih]; simp

variable {S : Type} (put : S → Blob Id → S) (C : Codec Id) (cut : Bytes → Nat)

theorem send_init : (sendVisitor put C cut).init = [] := rfl

theorem note_init : (noteVisitor C cut).init = [] := rfl

theorem visit_note (t : Tree Id) (n : Name) (md : Meta) (prev : Option (Node Id)) (e : DirEntry Id)
    (s0 : S) (l : List (Blob Id)) :
    (sendVisitor put C cut).visit t n md prev e (l.foldl put s0) =
      ((noteVisitor C cut).visit t n md prev e l).map (fun r => (r.1, r.2.foldl put s0)) := by
  have hmap : ∀ (y : Res (Tree Id)) (m : List (Blob Id)),
      y.map (fun t' => (t', (l ++ m).foldl put s0)) =
        (y.map (fun t' => (t', l ++ m))).map (fun r => (r.1, r.2.foldl put s0)) := by
    intro y m; cases y <;> rfl
  unfold noteVisitor sendVisitor
  cases e with
  | dir sub => simpa using hmap _ []
  | link tgt => simpa using hmap _ []
  | unchanged =>
    simp only
    split
    · rfl
    · cases prev with
      | none => rfl
      | some p => simpa using hmap _ []
  | changed x =>
    simp only [foldl_note]
    rw [← hmap, List.foldl_append]

theorem finalize_note (t : Tree Id) (s0 : S) (l : List (Blob Id)) :
    (sendVisitor put C cut).finalize t (l.foldl put s0) =
      ((noteVisitor C cut).finalize t l).map (fun r => (r.1, r.2.foldl put s0)) := by
  unfold noteVisitor sendVisitor
  simp only
  split
  · rfl
  · simp [Except.map, List.foldl_append]

/-- Whatever becomes of the blobs, the walk builds the same trees and offers the same blobs. -/
theorem walk_note (filter : Path → Bool) (F : Forest Id) (s0 : S) (d : Dir Bytes) :
    ∀ (pathOf : Name → Path) (pt : Option (Tree Id)) (t : Tree Id) (l : List (Blob Id)),
      walkFs (sendVisitor put C cut) filter F pathOf pt d t (l.foldl put s0) =
        (walkFs (noteVisitor C cut) filter F pathOf pt d t l).map (fun r => (r.1, r.2.foldl put s0)) := by
  induction d with
  | nil => intro pathOf pt t l; rfl
  | leaf n md lf rest ih =>
    intro pathOf pt t l
    unfold walkFs
    split
    · exact ih _ _ _ _
    · simp only
      cases lf with
      | other => exact ih _ _ _ _
      | link tgt =>
        simp only [visit_note]
        cases (noteVisitor C cut).visit t n md (pt.bind (fun t => BMap.get? t n)) (.link tgt) l with
        | error e => rfl
        | ok r => exact ih _ _ _ _
      | file x =>
        simp only
        cases fileChanged md (pt.bind (fun t => BMap.get? t n)) with
        | error e => rfl
        | ok ch =>
          simp only [visit_note]
          cases (noteVisitor C cut).visit t n md (pt.bind (fun t => BMap.get? t n))
            (if ch then .changed x else .unchanged) l with
          | error e => rfl
          | ok r => exact ih _ _ _ _
  | dir n md sub rest ihs ih =>
    intro pathOf pt t l
    unfold walkFs
    split
    · exact ih _ _ _ _
    · simp only
      have := ihs (fun m => pathOf n ++ [m])
        ((prevSubtree (pt.bind (fun t => BMap.get? t n))).bind (fun id => F.get? id)) [] l
      rw [send_init, note_init, this]
      cases walkFs (noteVisitor C cut) filter F (fun m => pathOf n ++ [m])
        ((prevSubtree (pt.bind (fun t => BMap.get? t n))).bind (fun id => F.get? id)) sub
        [] l with
      | error e => rfl
      | ok r =>
        simp only [Except.map, finalize_note]
        cases (noteVisitor C cut).finalize r.1 r.2 with
        | error e => rfl
        | ok r' =>
          simp only [Except.map, visit_note]
          cases (noteVisitor C cut).visit t n md (pt.bind (fun t => BMap.get? t n)) (.dir r'.1) r'.2 with
          | error e => rfl
          | ok r'' => exact ih _ _ _ _

/-- The tree of a backup and all blobs it is made of, with repeats: what the walk would send if
nothing were packed already. -/
def backupBlobs (C : Codec Id) (cut : Bytes → Nat) (filter : Path → Bool) (F : Forest Id)
    (pathOf : Name → Path) (prevRoot : Option Id) (d : Dir Bytes) : Res (Id × List (Blob Id)) :=
  walkTop (noteVisitor C cut) filter F pathOf prevRoot d []

theorem backupTree_eq (filter : Path → Bool) (F : Forest Id)
    (pathOf : Name → Path) (prevRoot : Option Id) (d : Dir Bytes) (s : Sends Id) :
    backupTree C cut filter F pathOf prevRoot d s =
      (backupBlobs C cut filter F pathOf prevRoot d).map (fun r => (r.1, r.2.foldl offer s)) := by
  unfold backupTree backupBlobs walkTop
  rw [backupVisitor_eq]
  have := walk_note offer C cut filter F s d pathOf (prevRoot.bind (fun id => F.get? id)) [] []
  rw [List.foldl_nil] at this
  rw [send_init, note_init, this]
  cases walkFs (noteVisitor C cut) filter F pathOf (prevRoot.bind (fun id => F.get? id)) d [] [] with
  | error e => rfl
  | ok r => simp only [Except.map, finalize_note]

/-! ## What the trees built stand for -/

section Rel

variable {PF : List Id → Bytes → Prop} {PT : Id → Tree Id → Prop}

theorem _root_.Backpak.Spec.DirRel.putFile {t : Tree Id} {d : Dir Bytes} (h : DirRel PF PT t d) (n : Name) (md : Meta)
    {cs : List Id} {x : Bytes} (hx : PF cs x) :
    DirRel PF PT (BMap.insert n ⟨.file cs, md⟩ t) (d.putLeaf n md (.file x)) := by
  induction h with
  | nil => exact .file hx .nil
  | file h1 h2 ih =>
    unfold BMap.insert Dir.putLeaf
    split
    · exact .file hx (.file h1 h2)
    · split
      · exact .file hx h2
      · exact .file h1 ih
  | link h2 ih =>
    unfold BMap.insert Dir.putLeaf
    split
    · exact .file hx (.link h2)
    · split
      · exact .file hx h2
      · exact .link ih
  | dir h0 h1 h2 _ ih =>
    unfold BMap.insert Dir.putLeaf
    split
    · exact .file hx (.dir h0 h1 h2)
    · split
      · exact .file hx h2
      · exact .dir h0 h1 ih

theorem _root_.Backpak.Spec.DirRel.putLink {t : Tree Id} {d : Dir Bytes} (h : DirRel PF PT t d) (n : Name) (md : Meta)
    (tgt : Bytes) :
    DirRel PF PT (BMap.insert n ⟨.link tgt, md⟩ t) (d.putLeaf n md (.link tgt)) := by
  induction h with
  | nil => exact .link .nil
  | file h1 h2 ih =>
    unfold BMap.insert Dir.putLeaf
    split
    · exact .link (.file h1 h2)
    · split
      · exact .link h2
      · exact .file h1 ih
  | link h2 ih =>
    unfold BMap.insert Dir.putLeaf
    split
    · exact .link (.link h2)
    · split
      · exact .link h2
      · exact .link ih
  | dir h0 h1 h2 _ ih =>
    unfold BMap.insert Dir.putLeaf
    split
    · exact .link (.dir h0 h1 h2)
    · split
      · exact .link h2
      · exact .dir h0 h1 ih

theorem _root_.Backpak.Spec.DirRel.putDir {t : Tree Id} {d : Dir Bytes} (h : DirRel PF PT t d) (n : Name) (md : Meta)
    {id : Id} {ts : Tree Id} {sub : Dir Bytes} (hid : PT id ts) (hs : DirRel PF PT ts sub) :
    DirRel PF PT (BMap.insert n ⟨.dir id, md⟩ t) (Dir.putDir n md sub d) := by
  induction h with
  | nil => exact .dir hid hs .nil
  | file h1 h2 ih =>
    unfold BMap.insert Dir.putDir
    split
    · exact .dir hid hs (.file h1 h2)
    · split
      · exact .dir hid hs h2
      · exact .file h1 ih
  | link h2 ih =>
    unfold BMap.insert Dir.putDir
    split
    · exact .dir hid hs (.link h2)
    · split
      · exact .dir hid hs h2
      · exact .link ih
  | dir h0 h1 h2 _ ih =>
    unfold BMap.insert Dir.putDir
    split
    · exact .dir hid hs (.dir h0 h1 h2)
    · split
      · exact .dir hid hs h2
      · exact .dir h0 h1 ih

theorem _root_.Backpak.Spec.DirRel.mono {PF' : List Id → Bytes → Prop} {PT' : Id → Tree Id → Prop}
    (hf : ∀ cs x, PF cs x → PF' cs x) (ht : ∀ id t, PT id t → PT' id t) {t : Tree Id} {d : Dir Bytes}
    (h : DirRel PF PT t d) : DirRel PF' PT' t d := by
  induction h with
  | nil => exact .nil
  | file h1 _ ih => exact .file (hf _ _ h1) ih
  | link _ ih => exact .link ih
  | dir h0 _ _ ih1 ih2 => exact .dir (ht _ _ h0) ih1 ih2

end Rel

theorem putLeaf_last {n : Name} {md : Meta} {l : Leaf Bytes} {d : Dir Bytes} (h : ∀ m ∈ d.names, m < n) :
    d.putLeaf n md l = d.append (.leaf n md l .nil) := by
  induction d with
  | nil => rfl
  | leaf n' md' l' r ih =>
    have h1 : n' < n := h n' (by simp [Dir.names])
    unfold Dir.putLeaf Dir.append
    rw [if_neg (lt_asymm h1), if_neg (ne_of_gt h1), ih]
    intro m hm
    exact h m (by simp [Dir.names, hm])
  | dir n' md' s r _ ih =>
    have h1 : n' < n := h n' (by simp [Dir.names])
    unfold Dir.putLeaf Dir.append
    rw [if_neg (lt_asymm h1), if_neg (ne_of_gt h1), ih]
    intro m hm
    exact h m (by simp [Dir.names, hm])

theorem putDir_last {n : Name} {md : Meta} {s d : Dir Bytes} (h : ∀ m ∈ d.names, m < n) :
    Dir.putDir n md s d = d.append (.dir n md s .nil) := by
  induction d with
  | nil => rfl
  | leaf n' md' l' r ih =>
    have h1 : n' < n := h n' (by simp [Dir.names])
    unfold Dir.putDir Dir.append
    rw [if_neg (lt_asymm h1), if_neg (ne_of_gt h1), ih]
    intro m hm
    exact h m (by simp [Dir.names, hm])
  | dir n' md' s r _ ih =>
    have h1 : n' < n := h n' (by simp [Dir.names])
    unfold Dir.putDir Dir.append
    rw [if_neg (lt_asymm h1), if_neg (ne_of_gt h1), ih]
    intro m hm
    exact h m (by simp [Dir.names, hm])

theorem append_assoc (a b c : Dir Bytes) : (a.append b).append c = a.append (b.append c) := by
  induction a with
  | nil => rfl
  | leaf n md l r ih => simp only [Dir.append, ih]
  | dir n md s r _ ih => simp only [Dir.append, ih]

theorem append_nil (a : Dir Bytes) : a.append .nil = a := by
  induction a with
  | nil => rfl
  | leaf n md l r ih => simp only [Dir.append, ih]
  | dir n md s r _ ih => simp only [Dir.append, ih]

theorem names_append (a b : Dir Bytes) : (a.append b).names = a.names ++ b.names := by
  induction a with
  | nil => rfl
  | leaf n md l r ih => simp only [Dir.append, Dir.names, ih, List.cons_append]
  | dir n md s r _ ih => simp only [Dir.append, Dir.names, ih, List.cons_append]

theorem putAll_sorted (d : Dir Bytes) : ∀ acc : Dir Bytes, (acc.names ++ d.names).Pairwise (· < ·) →
    putAll acc d = acc.append d := by
  induction d with
  | nil => intro acc _; rw [append_nil]; rfl
  | leaf n md l r ih =>
    intro acc h
    unfold putAll
    have h2 := h
    rw [List.pairwise_append] at h2
    rw [putLeaf_last (fun m hm => h2.2.2 m hm n (by simp [Dir.names])), ih, append_assoc]
    · rfl
    · rw [names_append]; simpa [Dir.names] using h
  | dir n md s r _ ih =>
    intro acc h
    unfold putAll
    have h2 := h
    rw [List.pairwise_append] at h2
    rw [putDir_last (fun m hm => h2.2.2 m hm n (by simp [Dir.names])), ih, append_assoc]
    · rfl
    · rw [names_append]; simpa [Dir.names] using h

theorem sorted_names {d : Dir Bytes} (h : d.Sorted) : d.names.Pairwise (· < ·) := by
  induction d with
  | nil => exact List.Pairwise.nil
  | leaf n md l r ih => exact List.pairwise_cons.mpr ⟨h.1, ih h.2⟩
  | dir n md s r _ ih => exact List.pairwise_cons.mpr ⟨h.1, ih h.2.2⟩

/-- A directory already in name order is as it is. -/
theorem arrange_sorted {d : Dir Bytes} (h : d.Sorted) : arrange d = d := by
  unfold arrange
  rw [putAll_sorted d .nil (by simpa [Dir.names] using sorted_names h)]
  rfl

theorem keep_names (filter : Path → Bool) (d : Dir Bytes) (pathOf : Name → Path) :
    (keep filter pathOf d).names.Sublist d.names := by
  induction d with
  | nil => exact List.Sublist.slnil
  | leaf n md l r ih =>
    unfold keep
    split
    · exact ih.cons _
    · exact ih.cons_cons _
  | dir n md s r _ ih =>
    unfold keep
    split
    · exact ih.cons _
    · exact ih.cons_cons _

theorem keep_sorted (filter : Path → Bool) {d : Dir Bytes} (h : d.Sorted) :
    ∀ pathOf : Name → Path, (keep filter pathOf d).Sorted := by
  induction d with
  | nil => intro _; trivial
  | leaf n md l r ih =>
    intro pathOf
    unfold keep
    split
    · exact ih h.2 _
    · exact ⟨fun m hm => h.1 m ((keep_names filter r pathOf).subset hm), ih h.2 _⟩
  | dir n md s r ihs ih =>
    intro pathOf
    unfold keep
    split
    · exact ih h.2.2 _
    · exact ⟨fun m hm => h.1 m ((keep_names filter r pathOf).subset hm), ihs h.2.1 _, ih h.2.2 _⟩

theorem Sorted.subs {d : Dir Bytes} (h : d.Sorted) : SubsSorted d := by
  induction d with
  | nil => trivial
  | leaf n md l r ih => exact ih h.2
  | dir n md s r _ ih => exact ⟨h.2.1, ih h.2.2⟩

theorem chunks_few {cut : Bytes → Nat} (hc : Chunk.Contract cut) (H : Bytes → Id) (x : Bytes) :
    (Chunk.chunkFile H cut x).length ≤ x.length := by
  have h1 := C10.chunks_concat H cut hc x
  have h2 := fun b hb => (C10.chunk_bounds H cut hc x b hb).1
  generalize Chunk.chunkFile H cut x = l at h1 h2
  have : ∀ l : List (Blob Id), (∀ b ∈ l, b.data ≠ []) → l.length ≤ ((l.map Blob.data).flatten).length := by
    intro l h
    induction l with
    | nil => simp
    | cons b l ih =>
      have hb : 0 < b.data.length := List.length_pos_iff.mpr (h b (by simp))
      have := ih (fun b hb => h b (List.mem_cons_of_mem _ hb))
      simp only [List.map_cons, List.flatten_cons, List.length_append, List.length_cons]
      omega
  have := this l h2
  rwa [h1] at this

theorem addNode_ok {t t' : Tree Id} {n : Name} {x : Node Id} (h : addNode t n x = .ok t') :
    t.get? n = none ∧ t' = BMap.insert n x t := by
  unfold addNode at h
  split at h
  · cases h
  · rename_i hn
    cases h
    exact ⟨by simpa using hn, rfl⟩

/-- What holds of a tree under construction. -/
structure Growing (t : Tree Id) : Prop where
  sorted : BMap.Sorted t
  names : ∀ p ∈ t, p.1.length < 2 ^ 64
  contents : ∀ p ∈ t, Serde.OkContents p.2.contents
  mds : ∀ p ∈ t, Serde.OkMeta p.2.md

omit [LinearOrder Id] in
theorem Growing.ok {t : Tree Id} (h : Growing t) (hl : t.length < 2 ^ 64) : Serde.OkTree t :=
  ⟨h.sorted, hl, h.names, h.contents, h.mds⟩

omit [LinearOrder Id] in
theorem growing_nil : Growing ([] : Tree Id) := ⟨by simp, by simp, by simp, by simp⟩

omit [LinearOrder Id] in
theorem Growing.insert {t : Tree Id} (h : Growing t) {n : Name} {x : Node Id} (hn : n.length < 2 ^ 64)
    (hc : Serde.OkContents x.contents) (hm : Serde.OkMeta x.md) : Growing (BMap.insert n x t) := by
  refine ⟨BMap.sorted_insert h.sorted _ _, ?_, ?_, ?_⟩ <;>
    · rintro ⟨k, v⟩ hp
      rcases BMap.mem_insert_of hp with ⟨rfl, rfl⟩ | hp
      · assumption
      · first
        | exact h.names _ hp
        | exact h.contents _ hp
        | exact h.mds _ hp

theorem length_insert_le {K V : Type} [LinearOrder K] (m : BMap K V) (k : K) (v : V) :
    (BMap.insert k v m).length ≤ m.length + 1 := by
  induction m with
  | nil => simp [BMap.insert]
  | cons e m ih =>
    obtain ⟨k', v'⟩ := e
    unfold BMap.insert
    split
    · simp
    · split
      · simp
      · simp only [List.length_cons]; omega

omit [LinearOrder Id] in
theorem fileChanged_false {md : Meta} {prev : Option (Node Id)} (h : fileChanged md prev = .ok false) :
    ∃ cs m, prev = some ⟨.file cs, m⟩ ∧ Unmodified md m := by
  unfold fileChanged at h
  split at h
  · cases h
  · rename_i hk
    simp only [ne_eq, not_not] at hk
    cases prev with
    | none => cases h
    | some p =>
      obtain ⟨c, m⟩ := p
      simp only [Node.kind] at h
      by_cases hm : m.kind = c.kind
      · rw [if_pos hm] at h
        simp only at h
        split at h
        · cases h
        · rename_i hck
          split at h
          · cases h
          · rename_i hmt
            split at h
            · cases h
            · rename_i hsz
              simp only [ne_eq, not_not] at hck hmt hsz
              cases c with
              | file cs => exact ⟨cs, m, rfl, hk, by rw [hm]; rfl, hsz, hmt⟩
              | dir id => rw [hk] at hck; cases hck
              | link tgt => rw [hk] at hck; cases hck
      · rw [if_neg hm] at h; cases h

theorem prevSub_eq (F : Forest Id) (pt : Option (Tree Id)) (n : Name) :
    (prevSubtree (pt.bind (fun t => BMap.get? t n))).bind (fun id => F.get? id) = prevSub F pt n := by
  unfold prevSub prevNode prevSubtree
  rcases pt.bind (fun t => BMap.get? t n) with _ | ⟨c, m⟩
  · rfl
  · cases c <;> rfl

section Visits

variable {C : Codec Id} {cut : Bytes → Nat} {t t' : Tree Id} {n : Name} {md : Meta}
  {prev : Option (Node Id)} {l l' : List (Blob Id)}

theorem map_pair {y : Res (Tree Id)} {m : List (Blob Id)} (h : y.map (fun t' => (t', m)) = .ok (t', l')) :
    y = .ok t' ∧ l' = m := by
  cases y with
  | error e => cases h
  | ok v => cases h; exact ⟨rfl, rfl⟩

theorem visit_dir {sub : Id} (h : (noteVisitor C cut).visit t n md prev (.dir sub) l = .ok (t', l')) :
    t.get? n = none ∧ t' = BMap.insert n ⟨.dir sub, md⟩ t ∧ l' = l := by
  obtain ⟨h1, h2⟩ := map_pair h
  exact ⟨(addNode_ok h1).1, (addNode_ok h1).2, h2⟩

theorem visit_link {tgt : Bytes} (h : (noteVisitor C cut).visit t n md prev (.link tgt) l = .ok (t', l')) :
    t.get? n = none ∧ t' = BMap.insert n ⟨.link tgt, md⟩ t ∧ l' = l := by
  obtain ⟨h1, h2⟩ := map_pair h
  exact ⟨(addNode_ok h1).1, (addNode_ok h1).2, h2⟩

theorem visit_changed {x : Bytes} (h : (noteVisitor C cut).visit t n md prev (.changed x) l = .ok (t', l')) :
    t.get? n = none ∧
    t' = BMap.insert n ⟨.file ((Chunk.chunkFile C.hash cut x).map Blob.id), md⟩ t ∧
      l' = l ++ Chunk.chunkFile C.hash cut x := by
  obtain ⟨h1, h2⟩ := map_pair h
  rw [foldl_note] at h2
  exact ⟨(addNode_ok h1).1, (addNode_ok h1).2, h2⟩

theorem visit_unchanged (h : (noteVisitor C cut).visit t n md prev .unchanged l = .ok (t', l')) :
    t.get? n = none ∧ ∃ p, prev = some p ∧ t' = BMap.insert n ⟨p.contents, md⟩ t ∧ l' = l := by
  simp only [noteVisitor, sendVisitor] at h
  split at h
  · cases h
  · cases prev with
    | none => cases h
    | some p =>
      obtain ⟨h1, h2⟩ := map_pair h
      exact ⟨(addNode_ok h1).1, p, rfl, (addNode_ok h1).2, h2⟩

theorem finalize_ok {id : Id} (h : (noteVisitor C cut).finalize t l = .ok (id, l')) :
    id = C.hash (C.encTree t) ∧ (t = [] ∧ l' = l ∨ l' = l ++ [⟨C.encTree t, C.hash (C.encTree t), .tree⟩]) := by
  simp only [noteVisitor, sendVisitor] at h
  split at h
  · rename_i ht; cases h; subst ht; exact ⟨rfl, .inl ⟨rfl, rfl⟩⟩
  · cases h; exact ⟨rfl, .inr rfl⟩

end Visits

section WalkRel

variable {C : Codec Id} {cut : Bytes → Nat} {filter : Path → Bool} {F : Forest Id}

/-- The blobs noted only grow. -/
theorem walk_grows (d : Dir Bytes) : ∀ (pathOf : Name → Path) (pt : Option (Tree Id)) (t t' : Tree Id)
    (l l' : List (Blob Id)), walkFs (noteVisitor C cut) filter F pathOf pt d t l = .ok (t', l') →
    ∃ m, l' = l ++ m := by
  induction d with
  | nil => intro _ _ _ _ _ _ h; cases h; exact ⟨[], by simp⟩
  | leaf n md lf rest ih =>
    intro pathOf pt t t' l l' h
    unfold walkFs at h
    split at h
    · exact ih _ _ _ _ _ _ h
    · simp only at h
      cases lf with
      | other => exact ih _ _ _ _ _ _ h
      | link tgt =>
        simp only at h
        split at h
        · cases h
        · rename_i i' s' hv
          obtain ⟨_, _, rfl⟩ := visit_link hv
          exact ih _ _ _ _ _ _ h
      | file x =>
        simp only at h
        split at h
        · cases h
        · split at h
          · cases h
          · rename_i ch _ _ i' s' hv
            obtain ⟨m, rfl⟩ := ih _ _ _ _ _ _ h
            cases ch with
            | true => obtain ⟨_, _, rfl⟩ := visit_changed hv; exact ⟨_, List.append_assoc _ _ _⟩
            | false => obtain ⟨_, _, _, _, rfl⟩ := visit_unchanged hv; exact ⟨_, rfl⟩
  | dir n md sub rest ihs ih =>
    intro pathOf pt t t' l l' h
    unfold walkFs at h
    split at h
    · exact ih _ _ _ _ _ _ h
    · simp only at h
      split at h
      · cases h
      · rename_i j s1 hs
        split at h
        · cases h
        · rename_i id s2 hf
          split at h
          · cases h
          · rename_i i' s' hv
            obtain ⟨m, rfl⟩ := ih _ _ _ _ _ _ h
            obtain ⟨_, _, rfl⟩ := visit_dir hv
            obtain ⟨m1, rfl⟩ := ihs _ _ _ _ _ _ hs
            obtain ⟨_, ⟨_, rfl⟩ | rfl⟩ := finalize_ok hf
            · exact ⟨_, List.append_assoc _ _ _⟩
            · exact ⟨m1 ++ [⟨C.encTree j, C.hash (C.encTree j), .tree⟩] ++ m, by simp only [List.append_assoc]⟩

theorem walk_subset {d : Dir Bytes} {pathOf : Name → Path} {pt : Option (Tree Id)} {t t' : Tree Id}
    {l l' L : List (Blob Id)} (h : walkFs (noteVisitor C cut) filter F pathOf pt d t l = .ok (t', l'))
    (hL : ∀ b ∈ l', b ∈ L) : ∀ b ∈ l, b ∈ L := by
  obtain ⟨m, rfl⟩ := walk_grows d _ _ _ _ _ _ h
  exact fun b hb => hL b (List.mem_append_left _ hb)

/-- The walk builds the tree of the kept entries, whatever `PF` and `PT` are, as long as they hold
of the chunks of the files read, of the chunks reused, and of the trees built. -/
theorem walk_rel {PF : List Id → Bytes → Prop} {PT : Id → Tree Id → Prop} {L : List (Blob Id)}
    (hc : Chunk.Contract cut)
    (hPF : ∀ x, (∀ b ∈ Chunk.chunkFile C.hash cut x, b ∈ L) →
      PF ((Chunk.chunkFile C.hash cut x).map Blob.id) x)
    (hPT : ∀ t, Serde.OkTree t → (t = [] ∨ ⟨C.encTree t, C.hash (C.encTree t), .tree⟩ ∈ L) →
      PT (C.hash (C.encTree t)) t)
    (d : Dir Bytes) : ∀ (pathOf : Name → Path) (pt : Option (Tree Id)) (t t' : Tree Id)
      (l l' : List (Blob Id)) (acc : Dir Bytes),
      Fits (keep filter pathOf d) → SubsSorted d →
      Reuse (fun cs x => PF cs x ∧ cs.length < 2 ^ 64) F pt (keep filter pathOf d) →
      Growing t → DirRel PF PT t acc → (∀ b ∈ l', b ∈ L) →
      walkFs (noteVisitor C cut) filter F pathOf pt d t l = .ok (t', l') →
      Growing t' ∧ t'.length ≤ t.length + (keep filter pathOf d).names.length ∧
        DirRel PF PT t' (putAll acc (keep filter pathOf d)) := by
  induction d with
  | nil =>
    intro pathOf pt t t' l l' acc _ _ _ hg hr _ h
    cases h
    exact ⟨hg, by simp, hr⟩
  | leaf n md lf rest ih =>
    intro pathOf pt t t' l l' acc hfit hsub hre hg hr hL h
    unfold walkFs at h
    by_cases hfil : filter (pathOf n) = false
    · rw [if_pos hfil] at h
      have hk : keep filter pathOf (.leaf n md lf rest) = keep filter pathOf rest := by
        rw [keep, if_pos (.inl hfil)]
      rw [hk] at hfit hre ⊢
      exact ih _ _ _ _ _ _ _ hfit hsub hre hg hr hL h
    · rw [if_neg hfil] at h
      simp only at h
      by_cases hlf : lf = .other
      · subst hlf
        have hk : keep filter pathOf (.leaf n md .other rest) = keep filter pathOf rest := by
          rw [keep, if_pos (.inr rfl)]
        rw [hk] at hfit hre ⊢
        exact ih _ _ _ _ _ _ _ hfit hsub hre hg hr hL h
      · have hk : keep filter pathOf (.leaf n md lf rest) = .leaf n md lf (keep filter pathOf rest) := by
          rw [keep, if_neg (by simp [hfil, hlf])]
        rw [hk] at hfit hre ⊢
        obtain ⟨hn, hm, hl, hfit⟩ := hfit
        cases lf with
        | other => exact absurd rfl hlf
        | link tgt =>
          simp only at h
          split at h
          · cases h
          · rename_i i' s' hv
            obtain ⟨_, rfl, rfl⟩ := visit_link hv
            have hg' := hg.insert (x := ⟨.link tgt, md⟩) hn hl hm
            obtain ⟨h1, h2, h3⟩ := ih _ _ _ _ _ _ _ hfit hsub hre.2 hg' (hr.putLink n md tgt) hL h
            refine ⟨h1, ?_, h3⟩
            have := length_insert_le t n ⟨.link tgt, md⟩
            simp only [Dir.names, List.length_cons]
            omega
        | file x =>
          simp only at h
          split at h
          · cases h
          · split at h
            · cases h
            · rename_i ch hch _ i' s' hv
              have hcase : ∃ cs, i' = BMap.insert n ⟨.file cs, md⟩ t ∧ PF cs x ∧ cs.length < 2 ^ 64 := by
                cases ch with
                | true =>
                  obtain ⟨_, hi, hs⟩ := visit_changed hv
                  refine ⟨_, hi, hPF x ?_, ?_⟩
                  · intro b hb
                    refine walk_subset h hL b ?_
                    rw [hs]
                    exact List.mem_append_right _ hb
                  · rw [List.length_map]
                    exact lt_of_le_of_lt (chunks_few hc _ x) hl
                | false =>
                  obtain ⟨_, p, hp, hi, hs⟩ := visit_unchanged hv
                  obtain ⟨cs, m, hp', hun⟩ := fileChanged_false hch
                  obtain ⟨hP, hlen⟩ := hre.1 x cs m rfl hp' hun
                  rw [hp] at hp'
                  cases hp'
                  exact ⟨cs, hi, hP, hlen⟩
              obtain ⟨cs, rfl, hP, hlen⟩ := hcase
              have hg' := hg.insert (x := ⟨.file cs, md⟩) hn hlen hm
              obtain ⟨h1, h2, h3⟩ := ih _ _ _ _ _ _ _ hfit hsub hre.2 hg' (hr.putFile n md hP) hL h
              refine ⟨h1, ?_, h3⟩
              have := length_insert_le t n ⟨.file cs, md⟩
              simp only [Dir.names, List.length_cons]
              omega
  | dir n md sub rest ihs ih =>
    intro pathOf pt t t' l l' acc hfit hsub hre hg hr hL h
    unfold walkFs at h
    by_cases hfil : filter (pathOf n) = false
    · rw [if_pos hfil] at h
      have hk : keep filter pathOf (.dir n md sub rest) = keep filter pathOf rest := by
        rw [keep, if_pos hfil]
      rw [hk] at hfit hre ⊢
      exact ih _ _ _ _ _ _ _ hfit hsub.2 hre hg hr hL h
    · rw [if_neg hfil] at h
      have hk : keep filter pathOf (.dir n md sub rest) =
          .dir n md (keep filter (fun m => pathOf n ++ [m]) sub) (keep filter pathOf rest) := by
        rw [keep, if_neg hfil]
      rw [hk] at hfit hre ⊢
      obtain ⟨hn, hm, hcount, hfs, hfit⟩ := hfit
      simp only [prevSub_eq, note_init] at h
      split at h
      · cases h
      · rename_i j s1 hs
        split at h
        · cases h
        · rename_i id s2 hf
          split at h
          · cases h
          · rename_i i' s' hv
            obtain ⟨_, rfl, rfl⟩ := visit_dir hv
            have hL2 := walk_subset h hL
            obtain ⟨hid, hfin⟩ := finalize_ok hf
            have hL1 : ∀ b ∈ s1, b ∈ L := by
              rcases hfin with ⟨_, rfl⟩ | rfl
              · exact hL2
              · exact fun b hb => hL2 b (List.mem_append_left _ hb)
            obtain ⟨g1, g2, g3⟩ := ihs _ _ _ _ _ _ _ hfs (Sorted.subs hsub.1) hre.1 growing_nil .nil hL1 hs
            have hlen : j.length < 2 ^ 64 := by
              simp only [List.length_nil, Nat.zero_add] at g2
              omega
            have hPTj : PT (C.hash (C.encTree j)) j := by
              apply hPT j (g1.ok hlen)
              rcases hfin with ⟨h0, _⟩ | rfl
              · exact .inl h0
              · exact .inr (hL2 _ (by simp))
            rw [← hid] at hPTj
            have harr : putAll .nil (keep filter (fun m => pathOf n ++ [m]) sub) =
                keep filter (fun m => pathOf n ++ [m]) sub := arrange_sorted (keep_sorted filter hsub.1 _)
            rw [harr] at g3
            have hg' := hg.insert (x := ⟨.dir id, md⟩) hn trivial hm
            obtain ⟨h1, h2, h3⟩ := ih _ _ _ _ _ _ _ hfit hsub.2 hre.2 hg' (hr.putDir n md hPTj g3) hL h
            refine ⟨h1, ?_, h3⟩
            have := length_insert_le t n ⟨.dir id, md⟩
            simp only [Dir.names, List.length_cons]
            omega

end WalkRel

/-- The top of the walk. -/
theorem backup_rel {C : Codec Id} {cut : Bytes → Nat} {filter : Path → Bool} {F : Forest Id}
    {PF : List Id → Bytes → Prop} {PT : Id → Tree Id → Prop} {L : List (Blob Id)}
    (hc : Chunk.Contract cut)
    (hPF : ∀ x, (∀ b ∈ Chunk.chunkFile C.hash cut x, b ∈ L) →
      PF ((Chunk.chunkFile C.hash cut x).map Blob.id) x)
    (hPT : ∀ t, Serde.OkTree t → (t = [] ∨ ⟨C.encTree t, C.hash (C.encTree t), .tree⟩ ∈ L) →
      PT (C.hash (C.encTree t)) t)
    {d : Dir Bytes} {pathOf : Name → Path} {prevRoot : Option Id} {root : Id}
    (hfit : Fits (keep filter pathOf d)) (hlen : (keep filter pathOf d).names.length < 2 ^ 64)
    (hsub : SubsSorted d)
    (hre : Reuse (fun cs x => PF cs x ∧ cs.length < 2 ^ 64) F (prevRoot.bind (fun id => F.get? id))
      (keep filter pathOf d))
    (h : backupBlobs C cut filter F pathOf prevRoot d = .ok (root, L)) :
    ∃ t, Serde.OkTree t ∧ root = C.hash (C.encTree t) ∧
      (t = [] ∨ ⟨C.encTree t, C.hash (C.encTree t), .tree⟩ ∈ L) ∧
      DirRel PF PT t (arrange (keep filter pathOf d)) := by
  unfold backupBlobs walkTop at h
  split at h
  · cases h
  · rename_i i s' hw
    obtain ⟨hid, hfin⟩ := finalize_ok h
    have hL : ∀ b ∈ s', b ∈ L := by
      rcases hfin with ⟨_, rfl⟩ | rfl
      · exact fun b hb => hb
      · exact fun b hb => List.mem_append_left _ hb
    obtain ⟨h1, h2, h3⟩ := walk_rel hc hPF hPT d _ _ _ _ _ _ _ hfit hsub hre growing_nil .nil hL hw
    refine ⟨i, h1.ok (by simp at h2; omega), hid, ?_, h3⟩
    rcases hfin with ⟨ht, _⟩ | rfl
    · exact .inl ht
    · exact .inr (List.mem_append_right _ (by simp))

/-- What offering blobs one after another does. -/
theorem offer_all (L : List (Blob Id)) : ∀ s : Sends Id, ∃ new,
    (L.foldl offer s).sent = s.sent ++ new ∧ new.Sublist L ∧ (new.map Blob.id).Nodup ∧
    (∀ b ∈ new, b.id ∉ s.packed) ∧
    (∀ i, i ∈ (L.foldl offer s).packed ↔ i ∈ s.packed ∨ i ∈ new.map Blob.id) ∧
    (∀ b ∈ L, b.id ∈ s.packed ∨ b.id ∈ new.map Blob.id) := by
  induction L with
  | nil => intro s; exact ⟨[], by simp⟩
  | cons b L ih =>
    intro s
    obtain ⟨new, h1, h2, h3, h4, h5, h6⟩ := ih (offer s b)
    rw [List.foldl_cons]
    unfold offer at h1 h4 h5 h6 ⊢
    split at h1
    · rename_i hb
      rw [if_pos hb] at h4 h5 h6 ⊢
      refine ⟨new, h1, h2.cons _, h3, h4, h5, ?_⟩
      intro b' hb'
      rcases List.mem_cons.mp hb' with rfl | hb'
      · exact .inl hb
      · exact h6 b' hb'
    · rename_i hb
      rw [if_neg hb] at h4 h5 h6 ⊢
      refine ⟨b :: new, ?_, h2.cons_cons _, ?_, ?_, ?_, ?_⟩
      · rw [h1]; simp
      · rw [List.map_cons, List.nodup_cons]
        refine ⟨fun hm => ?_, h3⟩
        obtain ⟨b', hb', he⟩ := List.mem_map.mp hm
        exact h4 b' hb' (by rw [he]; simp)
      · intro b' hb'
        rcases List.mem_cons.mp hb' with rfl | hb'
        · exact hb
        · exact fun h => h4 b' hb' (by simp [h])
      · intro i
        rw [h5]
        simp only [List.mem_cons, List.map_cons]
        tauto
      · intro b' hb'
        rcases List.mem_cons.mp hb' with rfl | hb'
        · exact .inr (by simp)
        · have := h6 b' hb'
          simp only [List.mem_cons, List.map_cons] at this ⊢
          tauto

theorem fits_keep (filter : Path → Bool) {d : Dir Bytes} (h : Fits d) :
    ∀ pathOf : Name → Path, Fits (keep filter pathOf d) := by
  induction d with
  | nil => intro _; trivial
  | leaf n md l r ih =>
    intro pathOf
    unfold keep
    split
    · exact ih h.2.2.2 _
    · exact ⟨h.1, h.2.1, h.2.2.1, ih h.2.2.2 _⟩
  | dir n md s r ihs ih =>
    intro pathOf
    unfold keep
    split
    · exact ih h.2.2.2.2 _
    · exact ⟨h.1, h.2.1, lt_of_le_of_lt (keep_names filter s _).length_le h.2.2.1, ihs h.2.2.2.1 _,
        ih h.2.2.2.2 _⟩

/-- Without a parent nothing is reused. -/
theorem reuse_none (P : List Id → Bytes → Prop) (F : Forest Id) (d : Dir Bytes) : Reuse P F none d := by
  induction d with
  | nil => trivial
  | leaf n md l r ih => exact ⟨fun x cs m _ h _ => by simp [prevNode] at h, ih⟩
  | dir n md s r ihs ih => exact ⟨ihs, ih⟩

theorem _root_.Backpak.Spec.Reuse.mono {P Q : List Id → Bytes → Prop} (hpq : ∀ cs x, P cs x → Q cs x)
    {F : Forest Id} {d : Dir Bytes} : ∀ {pt : Option (Tree Id)}, Reuse P F pt d → Reuse Q F pt d := by
  induction d with
  | nil => intro _ _; trivial
  | leaf n md l r ih => intro pt h; exact ⟨fun x cs m h1 h2 h3 => hpq _ _ (h.1 x cs m h1 h2 h3), ih h.2⟩
  | dir n md s r ihs ih => intro pt h; exact ⟨ihs h.1, ih h.2⟩

end Backpak
