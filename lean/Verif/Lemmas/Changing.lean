import Verif.Spec.Changing
import Verif.Lemmas.Listing
import Verif.Lemmas.Backup

/-!
# Backups of changing files
-/

namespace Backpak

open Spec Pipeline

variable {H : History} {cut : Bytes → Nat} {i z : Nat}

/-! ## One file -/

theorem readTo_le {off t u : Nat} {x : Bytes} (h : ReadTo H i off t u x) : t ≤ u := by
  induction h with
  | done h _ => exact h
  | more _ h1 _ ih => exact Nat.le_trans h1.1 ih

theorem readTo_bytes {off t u : Nat} {x : Bytes} (h : ReadTo H i off t u x) :
    ReadAt H i off t u x ∧ ((H u).bytes i).length ≤ off + x.length := by
  induction h with
  | done h he => exact ⟨⟨h, fun j b hb => by simp at hb⟩, by simpa using he⟩
  | @more off t v u x y hx h1 h2 ih =>
    refine ⟨⟨Nat.le_trans h1.1 ih.1.1, fun j b hb => ?_⟩, by have := ih.2; simp only [List.length_append]; omega⟩
    by_cases hj : j < x.length
    · rw [List.getElem?_append_left hj] at hb
      obtain ⟨m, h3, h4, h5⟩ := h1.2 j b hb
      exact ⟨m, h3, Nat.le_trans h4 ih.1.1, h5⟩
    · have hj : x.length ≤ j := by omega
      rw [List.getElem?_append_right hj] at hb
      obtain ⟨m, h3, h4, h5⟩ := ih.1.2 _ b hb
      refine ⟨m, Nat.le_trans h1.1 h3, h4, ?_⟩
      rw [← h5]; congr 1; omega

theorem prefix_of_get {x y : Bytes} (h : ∀ (j : Nat) (b : UInt8), x[j]? = some b → y[j]? = some b) :
    x = y.take x.length := by
  apply List.ext_getElem?
  intro j
  by_cases hj : j < x.length
  · rw [List.getElem?_take_of_lt hj, List.getElem?_eq_getElem hj,
      h j _ (List.getElem?_eq_getElem hj)]
  · rw [List.getElem?_eq_none (by omega), List.getElem?_eq_none (by simp; omega)]

/-- What is read of a file that stays as it is. -/
theorem readTo_still {t u : Nat} {x y : Bytes} (h : ReadTo H i 0 t u x)
    (hs : ∀ v, t ≤ v → v ≤ u → (H v).bytes i = y) : x = y := by
  obtain ⟨⟨h1, h2⟩, h3⟩ := readTo_bytes h
  rw [hs u h1 (Nat.le_refl _)] at h3
  have := prefix_of_get (x := x) (y := y) (fun j b hb => by
    obtain ⟨m, h4, h5, h6⟩ := h2 j b hb
    rwa [hs m h4 h5, Nat.zero_add] at h6)
  rwa [List.take_of_length_le (by omega)] at this

/-- What a mapping shows of a file that stays as it is. -/
theorem shown_still {off t u : Nat} {x y : Bytes} (h : ShownAt H i off t u x)
    (hs : ∀ v, t ≤ v → v ≤ u → (H v).bytes i = y) (hl : off + x.length ≤ y.length) :
    x = (y.drop off).take x.length := by
  refine prefix_of_get (fun j b hb => ?_)
  obtain ⟨m, h1, h2, h3⟩ := h.2 j b hb
  rw [hs m h1 h2] at h3
  have hj : j < x.length := (List.getElem?_eq_some_iff.mp hb).1
  have : off + j < y.length := by omega
  have := h3 _ (List.getElem?_eq_getElem this)
  subst this
  rw [List.getElem?_drop]
  exact List.getElem?_eq_getElem _

theorem mapped_le {len off t u : Nat} {l : List Piece} (h : Mapped H cut i len z off t u l) : t ≤ u := by
  induction h with
  | done h _ _ _ _ => exact h
  | piece _ _ _ h1 _ _ _ h2 _ _ _ ih => exact Nat.le_trans h1.1 ih

/-- The chunks of a mapped file that stays as it is: each is hashed and packed with the bytes there. -/
theorem mapped_still {y : Bytes} {off t u : Nat} {l : List Piece} (huz : u ≤ z)
    (h : Mapped H cut i y.length z off t u l) (hs : ∀ v, t ≤ v → v ≤ z → (H v).bytes i = y) (ho : off ≤ y.length) :
    l.map (fun p => (p.hashed, p.packed)) = (Chunk.cuts cut off (y.drop off)).map
      (fun c => ((y.drop c.offset).take c.length, (y.drop c.offset).take c.length)) := by
  induction h with
  | @done off t u r h1 h2 h3 h4 h5 =>
    have hr := shown_still h4 (fun v h6 h7 => hs v h6 (by omega)) (by omega)
    rw [List.take_of_length_le (by simp [h3])] at hr
    rw [Chunk.cuts, dif_neg (by rw [← hr, h3]; exact h5)]
    rfl
  | @piece off t u c k p r x yy l h1 h2 h3 h4 h5 h6 h7 h8 h9 h10 h11 ih =>
    have hc := mapped_le h11
    have hr := shown_still h4 (fun v h12 h13 => hs v h12 (by omega)) (by omega)
    rw [List.take_of_length_le (by simp [h3])] at hr
    have hx := shown_still h8 (fun v h12 h13 => hs v (by have := h4.1; omega) (by omega)) (by omega)
    have hy := shown_still h10 (fun v h12 h13 => hs v (by have := h4.1; have := h8.1; omega) (by omega)) (by omega)
    rw [Chunk.cuts, dif_pos (by rw [← hr, h3]; exact ⟨h5, h6⟩), ← hr]
    have := ih huz (fun v h12 h13 => hs v (by have := h4.1; omega) h13) (by omega)
    simp only [List.map_cons, this, h7 ▸ hx, h9 ▸ hy]
    rw [h7] at hx
    rw [h9] at hy
    congr 1
    rw [hr, List.drop_drop]

variable {Id : Type} [LinearOrder Id] {C : Codec Id}

omit [LinearOrder Id] in
/-- So the chunks of such a file are those of its bytes. -/
theorem mapped_chunks (hc : Chunk.Contract cut) (h : Bytes → Id) {y : Bytes} {t u : Nat} {l : List Piece}
    (huz : u ≤ z) (hm : Mapped H cut i y.length z 0 t u l)
    (hs : ∀ v, t ≤ v → v ≤ z → (H v).bytes i = y) :
    l.flatMap Piece.hashed = y ∧
      l.map (fun p => (⟨p.packed, h p.hashed, .chunk⟩ : Blob Id)) = Chunk.chunkFile h cut y := by
  have he := mapped_still huz hm hs (Nat.zero_le _)
  rw [List.drop_zero] at he
  constructor
  · have h1 := congrArg (List.flatMap Prod.fst) he
    rw [List.flatMap_map, List.flatMap_map] at h1
    rw [← C10.chunks_concat h cut hc y]
    unfold Chunk.chunkFile
    rw [← List.flatMap_def, List.flatMap_map]
    exact h1
  · have h1 := congrArg (List.map (fun q => (⟨q.2, h q.1, .chunk⟩ : Blob Id))) he
    rw [List.map_map, List.map_map] at h1
    exact h1

theorem opened_le {p : Path} {t u : Nat} {x : Shot} (h : Opened H cut z p t u x) : t ≤ u := by
  cases h with
  | small h1 _ h2 _ h3 => have := readTo_le h3; omega
  | large h1 _ h2 _ h3 h4 => have := mapped_le h4; omega

/-- A file that stays as it is is found as it is. -/
theorem opened_still (hc : Chunk.Contract cut) {p : Path} {t u : Nat} {x : Shot} {y : Bytes} (huz : u ≤ z)
    (h : Opened H cut z p t u x) (hs : StaysAs H p t z y) : seenFile x = y := by
  obtain ⟨j, hj⟩ := hs
  cases h with
  | @small o s u i x h1 h2 h3 h4 h5 =>
    have h6 := readTo_le h5
    have := (hj o h1 (by omega)).1
    rw [h2] at this
    cases this
    exact readTo_still h5 (fun v _ _ => (hj v (by omega) (by omega)).2)
  | @large o s m u i l h1 h2 h3 h4 h5 h6 =>
    have h7 := mapped_le h6
    have := (hj o h1 (by omega)).1
    rw [h2] at this
    cases this
    rw [(hj m (by omega) (by omega)).2] at h6
    exact (mapped_chunks (Id := Nat) hc (fun _ => 0) huz h6 (fun v _ _ => (hj v (by omega) (by omega)).2)).1

/-- If large files do not change, the blobs of a file are the chunks of what was found. -/
theorem opened_chunks (hc : Chunk.Contract cut) {p : Path} {t t' u : Nat} {x : Shot} (ht : t ≤ t') (huz : u ≤ z)
    (h : Opened H cut z p t' u x) (hs : LargeStay H t z) :
    x.blobs C cut = Chunk.chunkFile C.hash cut (seenFile x) := by
  cases h with
  | small => rfl
  | @large o s m u i l h1 h2 h3 h4 h5 h6 =>
    have h7 := mapped_le h6
    have hst : ∀ v, m ≤ v → v ≤ z → (H v).bytes i = (H m).bytes i := fun v h8 h9 =>
      (hs p i o s (by omega) h2 h3 (by omega) h4 v (by omega) h9).trans
        (hs p i o s (by omega) h2 h3 (by omega) h4 m h5 (by omega)).symm
    obtain ⟨a, b⟩ := mapped_chunks hc C.hash huz h6 hst
    simp only [Shot.blobs, seenFile]
    rw [a, b]

/-! ## The walk -/

theorem saw_le {filter : Path → Bool} {F : Forest Id} (d : Dir Shot) : ∀ (pathOf : Name → Path)
    (prev : Option (Tree Id)) (t u : Nat), Saw H cut z filter F pathOf prev d t u → t ≤ u := by
  induction d with
  | nil => intro _ _ t u h; exact h
  | leaf n md l rest ih =>
    intro pathOf prev t u h
    unfold Saw at h
    split at h
    · exact ih _ _ _ _ h
    · obtain ⟨s, v, h1, _, h2, _, h3⟩ := h
      have := ih _ _ _ _ h3
      omega
  | dir n md sub rest ih1 ih2 =>
    intro pathOf prev t u h
    unfold Saw at h
    split at h
    · exact ih2 _ _ _ _ h
    · obtain ⟨s, r, v, h1, _, _, h2, _, h3, h4⟩ := h
      have := ih1 _ _ _ _ h3
      have := ih2 _ _ _ _ h4
      omega

/-- If large files do not change, the walk does what it would do on a filesystem that holds what was found. -/
theorem walk_seen (hc : Chunk.Contract cut) {filter : Path → Bool} {F : Forest Id} {t0 : Nat}
    (hs : LargeStay H t0 z) (d : Dir Shot) : ∀ (pathOf : Name → Path)
    (prev : Option (Tree Id)) (t u : Nat) (tr : Tree Id) (s : Sends Id), t0 ≤ t → u ≤ z →
    Saw H cut z filter F pathOf prev d t u →
    walkFs (backupVisitorOf C (Shot.blobs C cut)) filter F pathOf prev d tr s =
      walkFs (backupVisitor C cut) filter F pathOf prev (seen d) tr s := by
  induction d with
  | nil => intro _ _ t u tr s _ _ h; rfl
  | leaf n md l rest ih =>
    intro pathOf prev t u tr s ht hu h
    unfold Saw at h
    rw [walkFs, seen, walkFs]
    by_cases hf : filter (pathOf n) = false
    · rw [if_pos hf] at h
      rw [if_pos hf, if_pos hf]
      exact ih _ _ _ _ _ _ ht hu h
    · rw [if_neg hf] at h
      rw [if_neg hf, if_neg hf]
      obtain ⟨s1, v, h1, h2, h3, h4, h5⟩ := h
      have h6 := saw_le _ _ _ _ _ h5
      have ih' := fun tr s => ih pathOf prev v u tr s (by omega) hu h5
      cases l with
      | other => exact ih' _ _
      | link target =>
        dsimp only [seenLeaf]
        rw [show (backupVisitorOf C (Shot.blobs C cut)).visit tr n md (prev.bind fun t => BMap.get? t n) (.link target) s = (backupVisitor C cut).visit tr n md (prev.bind fun t => BMap.get? t n) (.link target) s from rfl]
        cases (backupVisitor C cut).visit tr n md (prev.bind fun t => BMap.get? t n) (.link target) s with
        | error e => rfl
        | ok r => exact ih' _ _
      | file x =>
        dsimp only [seenLeaf]
        dsimp only at h4
        obtain ⟨_, h4⟩ := h4
        cases hch : fileChanged md (prev.bind fun t => BMap.get? t n) with
        | error e => rw [hch] at h4
        | ok ch =>
          rw [hch] at h4
          cases ch with
          | false =>
            simp only [Bool.false_eq_true, if_false]
            rw [show (backupVisitorOf C (Shot.blobs C cut)).visit tr n md (prev.bind fun t => BMap.get? t n) .unchanged s = (backupVisitor C cut).visit tr n md (prev.bind fun t => BMap.get? t n) .unchanged s from rfl]
            cases (backupVisitor C cut).visit tr n md (prev.bind fun t => BMap.get? t n) .unchanged s with
            | error e => rfl
            | ok r => exact ih' _ _
          | true =>
            have hb := opened_chunks (C := C) hc (t := t0) (by omega) (by omega) h4 hs
            have hv : (backupVisitorOf C (Shot.blobs C cut)).visit tr n md (prev.bind fun t => BMap.get? t n)
                (.changed x) s = (backupVisitor C cut).visit tr n md (prev.bind fun t => BMap.get? t n)
                (.changed (seenFile x)) s := by
              simp only [backupVisitorOf, backupVisitor, hb]
            simp only [if_true, hv]
            cases (backupVisitor C cut).visit tr n md (prev.bind fun t => BMap.get? t n) (.changed (seenFile x)) s with
            | error e => rfl
            | ok r => exact ih' _ _
  | dir n md sub rest ih1 ih2 =>
    intro pathOf prev t u tr s ht hu h
    unfold Saw at h
    rw [walkFs, seen, walkFs]
    by_cases hf : filter (pathOf n) = false
    · rw [if_pos hf] at h
      rw [if_pos hf, if_pos hf]
      exact ih2 _ _ _ _ _ _ ht hu h
    · rw [if_neg hf] at h
      rw [if_neg hf, if_neg hf]
      obtain ⟨s1, r, v, h1, h2, h3, h4, h5, h6, h7⟩ := h
      have h8 := saw_le _ _ _ _ _ h7
      have h9 := saw_le _ _ _ _ _ h6
      have ih' := fun tr s => ih2 pathOf prev v u tr s (by omega) hu h7
      dsimp only
      rw [ih1 _ _ _ _ (backupVisitorOf C (Shot.blobs C cut)).init s (by omega) (by omega) h6]
      rw [show (backupVisitorOf C (Shot.blobs C cut)).init = (backupVisitor C cut).init from rfl]
      cases walkFs (backupVisitor C cut) filter F (fun m => pathOf n ++ [m])
          ((prevSubtree (prev.bind fun t => BMap.get? t n)).bind fun id => F.get? id) (seen sub)
          (backupVisitor C cut).init s with
      | error e => rfl
      | ok q =>
        obtain ⟨j, s2⟩ := q
        dsimp only
        rw [show (backupVisitorOf C (Shot.blobs C cut)).finalize j s2 = (backupVisitor C cut).finalize j s2 from rfl]
        cases (backupVisitor C cut).finalize j s2 with
        | error e => rfl
        | ok q =>
          obtain ⟨id, s3⟩ := q
          dsimp only
          rw [show (backupVisitorOf C (Shot.blobs C cut)).visit tr n md (prev.bind fun t => BMap.get? t n) (.dir id) s3 = (backupVisitor C cut).visit tr n md (prev.bind fun t => BMap.get? t n) (.dir id) s3 from rfl]
          cases (backupVisitor C cut).visit tr n md (prev.bind fun t => BMap.get? t n) (.dir id) s3 with
          | error e => rfl
          | ok r => exact ih' _ _

/-- So the backup does what it would do on a filesystem that holds what was found. -/
theorem plan_seen (hc : Chunk.Contract cut) {w : World Id} {src : Source Id} {snaps : List (Snap Id)}
    {a : BackupArgs} {t : Nat} {d : Dir Shot} (hs : LargeStay H t z)
    (h : BackupSaw H C cut src snaps a t z d) :
    backupPlanOf C cut w src snaps a d = backupPlan C cut w src snaps { a with fs := seen d } := by
  unfold backupPlanOf backupPlan
  dsimp only
  cases hF : parentForest C src (parentSnapshot a.paths snaps) with
  | error e => rfl
  | ok F =>
    obtain ⟨u, hu, h1⟩ := h.2 F hF
    dsimp only
    have : ∀ s, backupTreeOf C cut a.filter F a.pathOf ((parentSnapshot a.paths snaps).map (·.tree)) d s =
        backupTree C cut a.filter F a.pathOf ((parentSnapshot a.paths snaps).map (·.tree)) (seen d) s := by
      intro s
      unfold backupTreeOf backupTree walkTop
      rw [walk_seen hc hs d _ _ _ _ _ _ (Nat.le_refl t) hu h1]
      rfl
    simp only [this]
    rfl

/-! ## What was found, and the files -/

/-- What is found of the files is what should be recorded. -/
theorem saw_recorded (hc : Chunk.Contract cut) {filter : Path → Bool} {F : Forest Id} {t0 : Nat}
    (d : Dir Shot) : ∀ (pathOf : Name → Path) (prev : Option (Tree Id)) (t u : Nat), t0 ≤ t → u ≤ z →
    Saw H cut z filter F pathOf prev d t u → AllRecorded H t0 z pathOf (keep filter pathOf (seen d)) := by
  induction d with
  | nil => intro _ _ t u _ _ h; trivial
  | leaf n md l rest ih =>
    intro pathOf prev t u ht hu h
    unfold Saw at h
    rw [seen, Spec.keep]
    by_cases hf : filter (pathOf n) = false
    · rw [if_pos hf] at h
      rw [if_pos (.inl hf)]
      exact ih _ _ _ _ ht hu h
    · rw [if_neg hf] at h
      obtain ⟨s, v, h1, h2, h3, h4, h5⟩ := h
      have h6 := saw_le _ _ _ _ _ h5
      have h7 := ih _ _ _ _ (by omega) hu h5
      split
      · exact h7
      · refine ⟨fun x hx => ⟨s, by omega, by omega, h2, fun y hy => ?_⟩, h7⟩
        cases l with
        | other => cases hx
        | link _ => cases hx
        | file x' =>
          obtain rfl : seenFile x' = x := by cases hx; rfl
          obtain ⟨_, h4⟩ := h4
          split at h4
          · exact h4.elim
          · exact opened_still hc (by omega) h4 hy
          · obtain ⟨y', rfl, hy'⟩ := h4
            obtain ⟨i, hi⟩ := hy
            obtain ⟨h8, h9⟩ := hi s (Nat.le_refl _) (by omega)
            exact (hy' i h8).trans h9
  | dir n md sub rest ih1 ih2 =>
    intro pathOf prev t u ht hu h
    unfold Saw at h
    rw [seen, Spec.keep]
    by_cases hf : filter (pathOf n) = false
    · rw [if_pos hf] at h
      rw [if_pos hf]
      exact ih2 _ _ _ _ ht hu h
    · rw [if_neg hf] at h
      rw [if_neg hf]
      obtain ⟨s1, r, v, h1, h2, h3, h4, h5, h6, h7⟩ := h
      have h8 := saw_le _ _ _ _ _ h7
      have h9 := saw_le _ _ _ _ _ h6
      exact ⟨ih1 _ _ _ _ (by omega) (by omega) h6, ih2 _ _ _ _ (by omega) hu h7⟩

variable {t : Nat}

theorem recorded_putLeaf {n : Name} {md : Meta} {l : Leaf Bytes} {pathOf : Name → Path} {d : Dir Bytes}
    (hl : ∀ x, l = .file x → Recorded H t z (pathOf n) md x) (h : AllRecorded H t z pathOf d) :
    AllRecorded H t z pathOf (d.putLeaf n md l) := by
  induction d with
  | nil => exact ⟨hl, trivial⟩
  | leaf n' md' l' r ih =>
    unfold Dir.putLeaf
    split
    · exact ⟨hl, h⟩
    · split
      · exact ⟨hl, h.2⟩
      · exact ⟨h.1, ih h.2⟩
  | dir n' md' s r _ ih =>
    unfold Dir.putLeaf
    split
    · exact ⟨hl, h⟩
    · split
      · exact ⟨hl, h.2⟩
      · exact ⟨h.1, ih h.2⟩

theorem recorded_putDir {n : Name} {md : Meta} {sub : Dir Bytes} {pathOf : Name → Path} {d : Dir Bytes}
    (hl : AllRecorded H t z (fun m => pathOf n ++ [m]) sub) (h : AllRecorded H t z pathOf d) :
    AllRecorded H t z pathOf (Dir.putDir n md sub d) := by
  induction d with
  | nil => exact ⟨hl, trivial⟩
  | leaf n' md' l' r ih =>
    unfold Dir.putDir
    split
    · exact ⟨hl, h⟩
    · split
      · exact ⟨hl, h.2⟩
      · exact ⟨h.1, ih h.2⟩
  | dir n' md' s r _ ih =>
    unfold Dir.putDir
    split
    · exact ⟨hl, h⟩
    · split
      · exact ⟨hl, h.2⟩
      · exact ⟨h.1, ih h.2⟩

theorem recorded_putAll {pathOf : Name → Path} (d : Dir Bytes) : ∀ acc : Dir Bytes,
    AllRecorded H t z pathOf acc → AllRecorded H t z pathOf d → AllRecorded H t z pathOf (putAll acc d) := by
  induction d with
  | nil => intro acc h _; exact h
  | leaf n md l rest ih => intro acc h h2; exact ih _ (recorded_putLeaf h2.1 h) h2.2
  | dir n md sub rest _ ih => intro acc h h2; exact ih _ (recorded_putDir h2.1 h) h2.2

theorem recorded_arrange {pathOf : Name → Path} {d : Dir Bytes} (h : AllRecorded H t z pathOf d) :
    AllRecorded H t z pathOf (arrange d) := recorded_putAll d .nil trivial h

theorem recorded_file {pathOf : Name → Path} {d : Dir Bytes} {n : Name} {m : Meta} {x : Bytes}
    (h : AllRecorded H t z pathOf d) (hn : fileAt d n = some (m, x)) : Recorded H t z (pathOf n) m x := by
  induction d with
  | nil => cases hn
  | leaf n' md l r ih =>
    unfold fileAt at hn
    split at hn
    · rename_i he
      subst he
      cases l with
      | file y => cases hn; exact h.1 _ rfl
      | link _ => cases hn
      | other => cases hn
    · exact ih h.2 hn
  | dir n' md s r _ ih =>
    unfold fileAt at hn
    split at hn
    · cases hn
    · exact ih h.2 hn

theorem recorded_sub {pathOf : Name → Path} {d : Dir Bytes} (n : Name)
    (h : AllRecorded H t z pathOf d) : AllRecorded H t z (fun m => pathOf n ++ [m]) (subAt d n) := by
  induction d with
  | nil => trivial
  | leaf n' md l r ih =>
    unfold subAt
    split
    · trivial
    · exact ih h.2
  | dir n' md s r _ ih =>
    unfold subAt
    split
    · rename_i he
      subst he
      exact h.1
    · exact ih h.2

variable {PF : List Id → Bytes → Prop}

theorem held_file {F : Forest Id} {t : Tree Id} {d0 : Dir Bytes} (h : HeldIn PF F t d0) {n : Name}
    {m : Meta} {x : Bytes} (hn : fileAt d0 n = some (m, x)) :
    ∃ cs, BMap.get? t n = some ⟨.file cs, m⟩ := by
  induction h with
  | nil => cases hn
  | @file n' cs' md' t' x' d' hx _ ih =>
    unfold fileAt at hn
    unfold BMap.get?
    by_cases he : n = n'
    · rw [if_pos he] at hn
      rw [if_pos he.symm]
      cases hn
      exact ⟨cs', rfl⟩
    · rw [if_neg he] at hn
      rw [if_neg (fun e => he e.symm)]
      exact ih hn
  | @link n' tgt md' t' d' _ ih =>
    unfold fileAt at hn
    unfold BMap.get?
    by_cases he : n = n'
    · rw [if_pos he] at hn; cases hn
    · rw [if_neg he] at hn
      rw [if_neg (fun e => he e.symm)]
      exact ih hn
  | @dir n' id md' t' u sub d' _ _ _ _ ih =>
    unfold fileAt at hn
    unfold BMap.get?
    by_cases he : n = n'
    · rw [if_pos he] at hn; cases hn
    · rw [if_neg he] at hn
      rw [if_neg (fun e => he e.symm)]
      exact ih hn

theorem held_sub {F : Forest Id} {t : Tree Id} {d0 : Dir Bytes} (h : HeldIn PF F t d0) (n : Name) :
    subAt d0 n = .nil ∨ ∃ id m, BMap.get? t n = some ⟨.dir id, m⟩ := by
  induction h with
  | nil => exact .inl rfl
  | @file n' cs' md' t' x' d' hx _ ih =>
    unfold subAt BMap.get?
    by_cases he : n = n'
    · rw [if_pos he]; exact .inl rfl
    · rw [if_neg he, if_neg (fun e => he e.symm)]
      exact ih
  | @link n' tgt md' t' d' _ ih =>
    unfold subAt BMap.get?
    by_cases he : n = n'
    · rw [if_pos he]; exact .inl rfl
    · rw [if_neg he, if_neg (fun e => he e.symm)]
      exact ih
  | @dir n' id md' t' u sub d' _ _ _ _ ih =>
    unfold subAt BMap.get?
    by_cases he : n = n'
    · rw [if_pos he.symm]; exact .inr ⟨id, md', rfl⟩
    · rw [if_neg he, if_neg (fun e => he e.symm)]
      exact ih

/-- A file with the kind, size and modification time of its node is not opened. -/
theorem unmodified_unread {md m : Meta} {cs : List Id} (h : Unmodified md m) :
    fileChanged md (some (⟨.file cs, m⟩ : Node Id)) = .ok false := by
  obtain ⟨h1, h2, h3, h4⟩ := h
  unfold fileChanged Node.kind
  simp [h1, h2, h3, h4, Contents.kind]

/-- If files that look unmodified are, a walk against a tree that holds what should have been recorded
before finds those files as they are there. -/
theorem saw_faithful {filter : Path → Bool} {F : Forest Id} {t0 z0 : Nat} (hst : Stamped H)
    (d : Dir Shot) : ∀ (pathOf : Name → Path) (prev : Option (Tree Id)) (d0 : Dir Bytes) (t u : Nat),
    z0 ≤ t → AllRecorded H t0 z0 pathOf d0 → (d0 = .nil ∨ ∃ tr, prev = some tr ∧ HeldIn PF F tr d0) →
    Saw H cut z filter F pathOf prev d t u → Faithful d0 (keep filter pathOf (seen d)) := by
  induction d with
  | nil => intro _ _ _ _ _ _ _ _ _; trivial
  | leaf n md l rest ih =>
    intro pathOf prev d0 t u ht hrec hheld h
    unfold Saw at h
    rw [seen, Spec.keep]
    by_cases hf : filter (pathOf n) = false
    · rw [if_pos hf] at h
      rw [if_pos (.inl hf)]
      exact ih _ _ _ _ _ ht hrec hheld h
    · rw [if_neg hf] at h
      obtain ⟨s, v, h1, h2, h3, h4, h5⟩ := h
      have h7 := ih _ _ _ _ _ (by omega) hrec hheld h5
      split
      · exact h7
      · refine ⟨fun x m x0 hx h0 hun => ?_, h7⟩
        cases l with
        | other => cases hx
        | link _ => cases hx
        | file x' =>
          obtain rfl : seenFile x' = x := by cases hx; rfl
          obtain ⟨_, h4⟩ := h4
          rcases hheld with rfl | ⟨tr, rfl, hheld⟩
          · cases h0
          · obtain ⟨cs, hcs⟩ := held_file hheld h0
            rw [Option.bind_some, hcs, unmodified_unread hun] at h4
            obtain ⟨y, rfl, hy⟩ := h4
            obtain ⟨s0, g1, g2, g3, g4⟩ := recorded_file hrec h0
            obtain ⟨b, i, hi⟩ := hst (pathOf n) s0 s m md (by omega) g3 h2 hun
            rw [g4 b ⟨i, fun v h8 h9 => hi v h8 (by omega)⟩]
            obtain ⟨h8, h9⟩ := hi s (by omega) (Nat.le_refl _)
            exact (hy i h8).trans h9
  | dir n md sub rest ih1 ih2 =>
    intro pathOf prev d0 t u ht hrec hheld h
    unfold Saw at h
    rw [seen, Spec.keep]
    by_cases hf : filter (pathOf n) = false
    · rw [if_pos hf] at h
      rw [if_pos hf]
      exact ih2 _ _ _ _ _ ht hrec hheld h
    · rw [if_neg hf] at h
      rw [if_neg hf]
      obtain ⟨s1, r, v, h1, h2, h3, h4, h5, h6, h7⟩ := h
      have h9 := saw_le _ _ _ _ _ h6
      refine ⟨ih1 _ _ _ _ _ (by omega) (recorded_sub n hrec) ?_ h6, ih2 _ _ _ _ _ (by omega) hrec hheld h7⟩
      rcases hheld with rfl | ⟨tr, rfl, hheld⟩
      · exact .inl rfl
      · rcases held_sub hheld n with h10 | ⟨id, m, h10⟩
        · exact .inl h10
        · obtain ⟨u', h11, h12⟩ := made_sub hheld h10
          refine .inr ⟨u', ?_, h12⟩
          rw [Option.bind_some, h10]
          exact h11

end Backpak
