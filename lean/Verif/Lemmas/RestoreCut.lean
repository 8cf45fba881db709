import Verif.Lemmas.RestoreTidy
import Verif.Lemmas.RoundTrip
import Verif.Spec.Again

/-!
# What a restore that is cut short leaves
-/

namespace Backpak

open Spec

variable {Id : Type} [LinearOrder Id] {H : Bytes → Id} {src : Source Id} {cenv : CacheEnv Id} {env : FsEnv}

/-! ## Looking at files by their paths -/

theorem fileAt_child {d : Dir Bytes} {n : Name} {m : Meta} {x : Bytes} :
    fileAt d n = some (m, x) ↔ (child d n).map Prod.fst = some (m, some (.file x)) := by
  induction d with
  | nil => simp [fileAt, child]
  | leaf k md l r ih =>
    simp only [fileAt, child]
    split
    · cases l <;> simp
    · exact ih
  | dir k md s r _ ih =>
    simp only [fileAt, child]
    split
    · simp
    · exact ih

theorem subAt_child {d : Dir Bytes} {n : Name} {md : Meta} {s : Dir Bytes} (h : child d n = some ((md, none), s)) :
    subAt d n = s := by
  induction d with
  | nil => cases h
  | leaf k md l r ih =>
    simp only [subAt, child] at h ⊢
    split
    · rename_i e; rw [if_pos e] at h; cases h
    · rename_i e; rw [if_neg e] at h; exact ih h
  | dir k md s r _ ih =>
    simp only [subAt, child] at h ⊢
    split
    · rename_i e; rw [if_pos e] at h; cases h; rfl
    · rename_i e; rw [if_neg e] at h; exact ih h

theorem subAt_not {d : Dir Bytes} {n : Name} (h : ∀ md s, child d n ≠ some ((md, none), s)) : subAt d n = .nil := by
  induction d with
  | nil => rfl
  | leaf k md l r ih =>
    simp only [subAt, child] at h ⊢
    split
    · rfl
    · rename_i e; simp only [if_neg e] at h; exact ih h
  | dir k md s r _ ih =>
    simp only [subAt, child] at h ⊢
    split
    · rename_i e; simp only [if_pos e] at h; exact absurd rfl (h _ _)
    · rename_i e; simp only [if_neg e] at h; exact ih h

theorem entry_subAt (d : Dir Bytes) (n : Name) {q : Path} (hq : q ≠ []) : entry (subAt d n) q = entry d (n :: q) := by
  rw [entry_cons]
  cases hc : child d n with
  | none =>
    rw [subAt_not (by simp [hc]), entry_empty]; rfl
  | some c =>
    obtain ⟨⟨md, l⟩, s⟩ := c
    cases l with
    | none => rw [subAt_child hc, view_dir hq]
    | some l => rw [subAt_not (by simp [hc]), entry_empty, view_leaf hq]

theorem entry_one (d : Dir Bytes) (n : Name) : entry d [n] = (child d n).map Prod.fst := rfl

/-- Files that look unmodified have the bytes they had, path by path. -/
theorem faithful_entry : ∀ {d d0 : Dir Bytes}, Faithful d0 d → ∀ {q : Path} {md m : Meta} {x x0 : Bytes},
    entry d q = some (md, some (.file x)) → entry d0 q = some (m, some (.file x0)) → Unmodified md m → x = x0 := by
  intro d
  induction d with
  | nil => intro d0 _ q md m x x0 h; rw [entry_empty] at h; cases h
  | leaf k md' l r ih =>
    intro d0 hf q md m x x0 h h0 hu
    obtain ⟨h1, h2⟩ := hf
    cases q with
    | nil => rw [entry_nil] at h; cases h
    | cons n q =>
      by_cases e : n = k
      · subst e
        cases q with
        | nil =>
          rw [entry_one] at h h0
          simp only [child, if_pos] at h
          cases h
          exact h1 x m x0 rfl (fileAt_child.mpr h0) hu
        | cons b q =>
          rw [entry_cons] at h
          simp only [child, if_pos, view] at h
          cases h
      · refine ih h2 (q := n :: q) ?_ h0 hu
        rw [entry_cons] at h ⊢
        simpa only [child, if_neg e] using h
  | dir k md' s r ihs ih =>
    intro d0 hf q md m x x0 h h0 hu
    obtain ⟨h1, h2⟩ := hf
    cases q with
    | nil => rw [entry_nil] at h; cases h
    | cons n q =>
      by_cases e : n = k
      · subst e
        cases q with
        | nil =>
          rw [entry_one] at h
          simp only [child, if_pos] at h
          cases h
        | cons b q =>
          refine ihs h1 (q := b :: q) ?_ (by rw [entry_subAt _ _ (by simp)]; exact h0) hu
          rw [entry_cons] at h
          simp only [child, if_pos] at h
          rw [view_dir (by simp)] at h
          exact h
      · refine ih h2 (q := n :: q) ?_ h0 hu
        rw [entry_cons] at h ⊢
        simpa only [child, if_neg e] using h

theorem entry_later {k : Name} {r d : Dir Bytes} (hd : ∀ n, n ≠ k → child d n = child r n) (hk : k ∉ r.names)
    {q : Path} {e : Ent} (h : entry r q = some e) : entry d q = some e := by
  cases q with
  | nil => rw [entry_nil] at h; cases h
  | cons n q =>
    rw [entry_cons] at h ⊢
    rw [hd n ?_]
    · exact h
    · rintro rfl
      rw [child_none.mpr hk] at h
      cases h

theorem entry_faithful : ∀ {d d0 : Dir Bytes}, d.names.Nodup → SubsSorted d →
    (∀ {q : Path} {md m : Meta} {x x0 : Bytes}, entry d q = some (md, some (.file x)) →
      entry d0 q = some (m, some (.file x0)) → Unmodified md m → x = x0) → Faithful d0 d := by
  intro d
  induction d with
  | nil => intro d0 _ _ _; trivial
  | leaf k md' l r ih =>
    intro d0 hn hs h
    rw [Dir.names, List.nodup_cons] at hn
    refine ⟨?_, ih hn.2 hs ?_⟩
    · rintro x m x0 rfl h0 hu
      refine h (q := [k]) (md := md') ?_ (by rw [entry_one]; exact fileAt_child.mp h0) hu
      rw [entry_one]
      simp [child]
    · intro q md m x x0 hq
      exact h (entry_later (fun n hne => by simp [child, hne]) hn.1 hq)
  | dir k md' s r ihs ih =>
    intro d0 hn hs h
    rw [Dir.names, List.nodup_cons] at hn
    refine ⟨ihs ((sorted_names hs.1).imp ne_of_lt) (Sorted.subs hs.1) ?_, ih hn.2 hs.2 ?_⟩
    · intro q md m x x0 hq h0 hu
      have hne : q ≠ [] := by rintro rfl; rw [entry_nil] at hq; cases hq
      refine h (q := k :: q) ?_ (by rw [← entry_subAt _ _ hne]; exact h0) hu
      rw [entry_cons]
      simp only [child, if_pos]
      rw [view_dir hne]
      exact hq
    · intro q md m x x0 hq
      exact h (entry_later (fun n hne => by simp [child, hne]) hn.1 hq)

theorem kinds_entry : ∀ {d : Dir Bytes}, d.KindsOk → ∀ {q : Path} {md : Meta} {x : Bytes},
    entry d q = some (md, some (.file x)) → md.kind = .file := by
  intro d
  induction d with
  | nil => intro _ q md x h; rw [entry_empty] at h; cases h
  | leaf k md' l r ih =>
    intro hk q md x h
    have hr : r.KindsOk := by cases l <;> exact hk.2
    cases q with
    | nil => rw [entry_nil] at h; cases h
    | cons n q =>
      rw [entry_cons] at h
      by_cases e : n = k
      · simp only [child, if_pos e] at h
        cases q with
        | nil => cases h; exact hk.1
        | cons b q => cases h
      · simp only [child, if_neg e] at h
        exact ih hr (q := n :: q) (by rw [entry_cons]; exact h)
  | dir k md' s r ihs ih =>
    intro hk q md x h
    cases q with
    | nil => rw [entry_nil] at h; cases h
    | cons n q =>
      rw [entry_cons] at h
      by_cases e : n = k
      · simp only [child, if_pos e] at h
        cases q with
        | nil => cases h
        | cons b q => rw [view_dir (by simp)] at h; exact ihs hk.2.1 h
      · simp only [child, if_neg e] at h
        exact ih hk.2.2 (q := n :: q) (by rw [entry_cons]; exact h)

/-! ## What calls leave alone -/

theorem calls_split (a : List (SysOp Id)) {b : List (SysOp Id)} {d d' : Disk Id}
    (h : calls H src cenv env (a ++ b) d = (d', none)) :
    ∃ d1, calls H src cenv env a d = (d1, none) ∧ calls H src cenv env b d1 = (d', none) := by
  induction a generalizing d with
  | nil => exact ⟨d, rfl, h⟩
  | cons op a ih =>
    rw [List.cons_append] at h
    unfold calls at h
    split at h
    · cases h
    · rename_i d1 h1
      obtain ⟨d2, h2, h3⟩ := ih h
      refine ⟨d2, ?_, h3⟩
      unfold calls
      rw [h1]
      exact h2

theorem item_of_same {o o' : Option Obj} (h : SameButTime o o') : o'.map Obj.item = o.map Obj.item := by
  have := congrArg (Option.map Prod.fst) h
  rw [Option.map_map, Option.map_map] at this
  exact this

/-- What is at a path stays what it is unless something is made or removed there or above. -/
theorem call_item {op : SysOp Id} {q : Path} (hop : op.makes = true → ¬ op.path <+: q) (d : Disk Id) :
    ((call H src cenv env op d).1.fs q).map Obj.item = (d.fs q).map Obj.item := by
  by_cases hp : op.path <+: q
  · have hm : op.makes = false := by
      cases h : op.makes
      · rfl
      · exact absurd hp (hop h)
    unfold call
    split
    · rfl
    split
    · rfl
    · rfl
    · cases op with
      | times p t =>
        unfold callHere
        simp only [SysOp.path]
        cases ho : d.fs p with
        | none => rfl
        | some o =>
          show ((d.fs.put p _) q).map Obj.item = _
          by_cases e : q = p
          · subst e; simp [Fs.put, ho]
          · simp [Fs.put, e]
      | chmod p m =>
        unfold callHere
        simp only [SysOp.path]
        cases ho : d.fs p with
        | none => rfl
        | some o =>
          obtain ⟨i, mo, t⟩ := o
          by_cases e : q = p
          · subst e; cases i <;> simp [Fs.put, ho]
          · cases i <;> simp [Fs.put, e]
      | _ => cases hm
  · exact item_of_same (call_local op d q hp).1

theorem calls_item {ops : List (SysOp Id)} {q : Path} (hop : ∀ op ∈ ops, op.makes = true → ¬ op.path <+: q) :
    ∀ d : Disk Id, ((calls H src cenv env ops d).1.fs q).map Obj.item = (d.fs q).map Obj.item := by
  induction ops with
  | nil => intro d; rfl
  | cons op ops ih =>
    intro d
    have h1 := call_item (H := H) (src := src) (cenv := cenv) (env := env) (hop op (by simp)) d
    unfold calls
    split
    · rename_i d' e he; rw [he] at h1; exact h1
    · rename_i d' he
      rw [he] at h1
      rw [ih (fun o ho => hop o (List.mem_cons_of_mem _ ho))]
      exact h1

theorem fillFile_only (p : Path) (cs : List Id) : ∀ d : Disk Id,
    Only p d.fs (fillFile H src cenv p cs d).1.fs := by
  induction cs with
  | nil => intro d; exact Only.refl _ _
  | cons c cs ih =>
    intro d
    unfold fillFile
    split
    · exact Only.refl _ _
    · split
      · exact (only_put _ _ _).trans (ih _)
      · exact Only.refl _ _

/-- Only removing a directory changes anything below the path of a call. -/
theorem callHere_only {op : SysOp Id} (hop : ∀ p, op ≠ .rmAll p) (d : Disk Id) :
    Only op.path d.fs (callHere H src cenv env op d).1.fs := by
  unfold callHere
  extract_lets now p d1 enter away
  have henter : ∀ o, Only op.path d.fs (enter o).fs := fun o =>
    (only_put _ _ _).trans (only_touch _ _ _)
  split
  case h_1 => exact (henter _).trans (fillFile_only _ _ _)
  case h_2 => exact (only_put _ _ _).trans (fillFile_only _ _ _)
  all_goals first
    | exact Only.refl _ _
    | exact henter _
    | exact only_put _ _ _
    | exact absurd rfl (hop _)

theorem way_parent {fs : Fs} {p : Path} (h : fs.way p = .here) : p ≠ [] ∧ Fs.isDir (fs p.dropLast) = true := by
  unfold Fs.way at h
  split at h
  · cases h
  · split at h
    · assumption
    · cases h

/-- A file has the bytes and the time it had, or the call has given it its bytes or its time. -/
theorem call_file {op : SysOp Id} {q : Path} {d : Disk Id} {x : Bytes} {m : Nat} {t : Int}
    (h : (call H src cenv env op d).1.fs q = some ⟨.file x, m, t⟩) :
    (∃ m0, d.fs q = some ⟨.file x, m0, t⟩) ∨ (op.marks = true ∧ op.path = q) := by
  unfold call at h
  split at h
  · exact .inl ⟨_, h⟩
  split at h
  · exact .inl ⟨_, h⟩
  · exact .inl ⟨_, h⟩
  · rename_i hway
    obtain ⟨hne, hpar⟩ := way_parent hway
    have away : ∀ fs' : Fs, Only op.path d.fs fs' → q ≠ op.path → fs' q = some ⟨.file x, m, t⟩ →
        ∃ m0, d.fs q = some ⟨.file x, m0, t⟩ := by
      intro fs' ho hq hf
      obtain ⟨h1, h2⟩ := ho q hq
      by_cases e : q = op.path.dropLast
      · exfalso
        have h3 := isDir_same h1
        rw [hf, e, hpar] at h3
        cases h3
      · rw [h2 e] at hf; exact ⟨_, hf⟩
    by_cases hrm : ∃ p, op = .rmAll p
    · obtain ⟨p, rfl⟩ := hrm
      refine .inl ?_
      by_cases hp : p <+: q
      · unfold callHere at h
        simp only [SysOp.path] at h hne
        have hclear : ∀ n, ((d.fs.clear p).touchParent p n) q = none := by
          intro n
          have hc : d.fs.clear p q = none := if_pos (by simpa using hp)
          unfold Fs.touchParent
          split
          · rw [hc]; rfl
          · exact hc
        have hput : ∀ n, ((d.fs.put p none).touchParent p n) q = some ⟨.file x, m, t⟩ → ∃ m0, d.fs q = some ⟨.file x, m0, t⟩ := by
          intro n hn
          by_cases e : q = p
          · subst e
            rw [put_touch_at hne] at hn
            cases hn
          · exact away _ ((only_put _ _ _).trans (only_touch _ _ _)) e hn
        split at h <;> simp_all
        exact hput _ h
      · obtain ⟨h1, h2⟩ := callHere_local (H := H) (src := src) (cenv := cenv) (env := env) (.rmAll p) d q hp
        by_cases e : q = p.dropLast
        · exfalso
          have h3 := isDir_same h1
          simp only [SysOp.path] at hpar
          rw [h, e, hpar] at h3
          cases h3
        · rw [h2 e] at h; exact ⟨_, h⟩
    · by_cases e : q = op.path
      · subst e
        cases op with
        | write p cs => exact .inr ⟨rfl, rfl⟩
        | times p t => exact .inr ⟨rfl, rfl⟩
        | rmAll p => exact absurd ⟨p, rfl⟩ hrm
        | symlink p tgt =>
          refine .inl ?_
          unfold callHere at h
          simp only [SysOp.path] at h hne ⊢
          split at h <;> simp_all [put_touch_at]
        | mkdir p =>
          refine .inl ?_
          unfold callHere at h
          simp only [SysOp.path] at h hne ⊢
          split at h <;> simp_all [put_touch_at]
        | rmFile p =>
          refine .inl ?_
          unfold callHere at h
          simp only [SysOp.path] at h hne ⊢
          split at h <;> simp_all [put_touch_at]
        | chmod p mode =>
          refine .inl ?_
          unfold callHere at h
          simp only [SysOp.path] at h hne ⊢
          cases ho : d.fs p with
          | none => simp only [ho] at h; cases h
          | some o =>
            obtain ⟨i, mo, t'⟩ := o
            cases i <;> simp [Fs.put, ho] at h ⊢
            exact ⟨h.1, h.2.2⟩
      · exact .inl (away _ (callHere_only (fun p hp => hrm ⟨p, hp⟩) d) e h)

theorem calls_file {ops : List (SysOp Id)} {q : Path} {x : Bytes} {m : Nat} {t : Int} :
    ∀ {d dk : Disk Id}, calls H src cenv env ops d = (dk, none) → dk.fs q = some ⟨.file x, m, t⟩ →
    (∃ m0, d.fs q = some ⟨.file x, m0, t⟩) ∨ ∃ a op b, ops = a ++ op :: b ∧ op.marks = true ∧ op.path = q := by
  induction ops generalizing m with
  | nil => intro d dk h hf; cases h; exact .inl ⟨_, hf⟩
  | cons op ops ih =>
    intro d dk h hf
    unfold calls at h
    split at h
    · cases h
    · rename_i d1 h1
      rcases ih h hf with ⟨m0, h2⟩ | ⟨a, o, b, rfl, h3⟩
      · have h1' : (call H src cenv env op d).1 = d1 := by rw [h1]
        rw [← h1'] at h2
        rcases call_file h2 with h4 | h4
        · exact .inl h4
        · exact .inr ⟨[], op, ops, rfl, h4⟩
      · exact .inr ⟨op :: a, o, b, rfl, h3⟩

/-! ## A restore cut short -/

variable {C : Codec Id} {R : Repo Id} {cut : Bytes → Nat} {look look1 : Look} {dangling dangling1 : Path → Bool}
  {s : Snapshot Id} {d2 : Dir Bytes} {fs : Fs}

theorem calls_outside {ops : List (SysOp Id)} {q : Path} (hop : ∀ op ∈ ops, ¬ op.path <+: q) :
    ∀ d : Disk Id, SameButTime (d.fs q) ((calls H src cenv env ops d).1.fs q) := by
  induction ops with
  | nil => intro d; exact SameButTime.refl _
  | cons op ops ih =>
    intro d
    have h1 := (call_local (H := H) (src := src) (cenv := cenv) (env := env) op d q (hop op (by simp))).1
    unfold calls
    split
    · rename_i d' e he; rw [he] at h1; exact h1
    · rename_i d' he
      rw [he] at h1
      exact h1.trans (ih (fun o ho => hop o (List.mem_cons_of_mem _ ho)) d')

theorem calls_one {op : SysOp Id} {d d' : Disk Id} (h : call H src cenv env op d = (d', none)) :
    calls H src cenv env [op] d = (d', none) := by
  unfold calls
  rw [h]
  rfl

theorem calls_join {a b : List (SysOp Id)} {d d1 d' : Disk Id} (h : calls H src cenv env a d = (d1, none))
    (h' : calls H src cenv env b d1 = (d', none)) : calls H src cenv env (a ++ b) d = (d', none) := by
  induction a generalizing d with
  | nil => cases h; exact h'
  | cons op a ih =>
    rw [List.cons_append]
    unfold calls at h ⊢
    split at h
    · cases h
    · rename_i d3 he
      exact ih h

/-- Where a cut-short restore has made no call, nothing but times has changed. -/
theorem cut_outside {ops : List (SysOp Id)} {d dk : Disk Id} (h : CutShort H src cenv env ops d dk) {q : Path}
    (hop : ∀ op ∈ ops, ¬ op.path <+: q) : SameButTime (d.fs q) (dk.fs q) := by
  obtain ⟨a, b, rfl, h | ⟨op, rest, d1, rfl, h, hm⟩⟩ := h
  · have := calls_outside (H := H) (src := src) (cenv := cenv) (env := env) (ops := a)
      (fun o ho => hop o (List.mem_append_left _ ho)) d
    rw [h] at this
    exact this
  · have h0 := calls_outside (H := H) (src := src) (cenv := cenv) (env := env) (ops := a)
      (fun o ho => hop o (List.mem_append_left _ ho)) d
    rw [h] at h0
    have hop1 := hop op (by simp)
    refine h0.trans ?_
    cases hm with
    | @write p cs d' x m t n done is =>
      have h1 := (call_local (H := H) (src := src) (cenv := cenv) (env := env) (.write p cs) d1 q hop1).1
      rw [done] at h1
      refine h1.trans ?_
      have : (d'.fs.put p (some ⟨.file (x.take n), m, t⟩)) q = d'.fs q :=
        if_neg (fun e => hop1 (by rw [e]; exact List.prefix_refl _))
      show SameButTime _ ((d'.fs.put p (some ⟨.file (x.take n), m, t⟩)) q)
      rw [this]
      exact SameButTime.refl _
    | rmAll dir below others =>
      dsimp only
      rw [others q hop1]
      exact SameButTime.refl _

/-- A file after the first of the calls is as it was before, or as it is after all of them. -/
theorem prefix_file {a b : List (SysOp Id)} (ht : Tidy (a ++ b)) {d d1 d' : Disk Id}
    (h1 : calls H src cenv env a d = (d1, none)) (h2 : calls H src cenv env b d1 = (d', none)) {q : Path} {x : Bytes}
    {m : Nat} {t : Int} (hf : d1.fs q = some ⟨.file x, m, t⟩) :
    (∃ m0, d.fs q = some ⟨.file x, m0, t⟩) ∨ (d'.fs q).map Obj.item = some (.file x) := by
  rcases calls_file h1 hf with h | ⟨a1, op, a2, rfl, hm, hp⟩
  · exact .inl h
  · refine .inr ?_
    have hb : ∀ o ∈ b, o.makes = true → ¬ o.path <+: q := by
      intro o ho hmk
      have := (List.pairwise_append.mp ht).2.2 op (by simp) o ho
      rw [← hp]
      exact this.1 hm hmk
    have := calls_item (H := H) (src := src) (cenv := cenv) (env := env) hb d1
    rw [h2] at this
    rw [this, hf]
    rfl

/-- A file after a restore is cut short is as it was before, or has the first bytes of what it has
after all of the calls. -/
theorem cut_file {ops : List (SysOp Id)} (ht : Tidy ops) {d dk d' : Disk Id}
    (h : CutShort H src cenv env ops d dk) (hd : calls H src cenv env ops d = (d', none)) {q : Path} {x : Bytes}
    {m : Nat} {t : Int} (hf : dk.fs q = some ⟨.file x, m, t⟩) :
    (∃ m0, d.fs q = some ⟨.file x, m0, t⟩) ∨ ∃ y n, (d'.fs q).map Obj.item = some (.file y) ∧ x = y.take n := by
  have whole : ∀ {a b : List (SysOp Id)} {d1 : Disk Id}, ops = a ++ b → calls H src cenv env a d = (d1, none) →
      d1.fs q = some ⟨.file x, m, t⟩ →
      (∃ m0, d.fs q = some ⟨.file x, m0, t⟩) ∨ ∃ y n, (d'.fs q).map Obj.item = some (.file y) ∧ x = y.take n := by
    rintro a b d1 rfl h1 hf1
    obtain ⟨d1', g1, g2⟩ := calls_split a hd
    rw [h1] at g1
    cases g1
    rcases prefix_file ht h1 g2 hf1 with h | h
    · exact .inl h
    · exact .inr ⟨x, x.length, h, by simp⟩
  obtain ⟨a, b, e, h | ⟨op, rest, d1, rfl, h, hm⟩⟩ := h
  · exact whole e h hf
  · cases hm with
    | @write p cs d3 x' m' t' n done is =>
      have e' : ops = (a ++ [.write p cs]) ++ rest := by rw [e]; simp
      have hj := calls_join h (calls_one done)
      by_cases hq : q = p
      · subst hq
        have hxx : some (⟨.file (x'.take n), m', t'⟩ : Obj) = some ⟨.file x, m, t⟩ := by
          rw [← hf]; exact (if_pos rfl).symm
        refine .inr ⟨x', n, ?_, by cases hxx; rfl⟩
        rw [e'] at hd ht
        obtain ⟨d1', g1, g2⟩ := calls_split _ hd
        rw [hj] at g1
        cases g1
        have hb : ∀ o ∈ rest, o.makes = true → ¬ o.path <+: q := by
          intro o ho hmk
          have := (List.pairwise_append.mp ht).2.2 (.write q cs) (by simp) o ho
          exact this.1 rfl hmk
        have := calls_item (H := H) (src := src) (cenv := cenv) (env := env) hb d3
        rw [g2] at this
        rw [this, is]
        rfl
      · refine whole e' hj ?_
        rw [← hf]
        exact (if_neg hq).symm
    | @rmAll p fs dir below others =>
      dsimp only at hf
      by_cases hq : p <+: q
      · rcases below q hq with h1 | h1 | ⟨h1, t1, h2⟩
        · rw [h1] at hf; cases hf
        · exact whole e h (by rw [← h1]; exact hf)
        · rw [h2] at hf
          exfalso
          cases ho : d1.fs q with
          | none => rw [ho] at hf; cases hf
          | some o =>
            rw [ho] at hf h1
            obtain ⟨i, mo, ti⟩ := o
            simp at hf
            rw [hf.1] at h1
            cases h1
      · exact whole e h (by rw [← others q hq]; exact hf)

/-- Below what the snapshot has as a file or symlink it has nothing. -/
theorem entry_under {d : Dir Bytes} {r q : Path} {md : Meta} {l : Leaf Bytes} (h : entry d r = some (md, some l))
    (hp : r <+: q) (hq : entry d q ≠ none) : r = q := by
  obtain ⟨z, rfl⟩ := hp
  by_cases hz : z = []
  · simp [hz]
  · exfalso
    apply hq
    clear hq
    induction r generalizing d with
    | nil => rw [entry_nil] at h; cases h
    | cons n r ih =>
      rw [List.cons_append, entry_cons]
      rw [entry_cons] at h
      cases hc : child d n with
      | none => rfl
      | some c =>
        obtain ⟨⟨md', l'⟩, s'⟩ := c
        rw [hc] at h
        cases r with
        | nil =>
          cases h
          exact view_leaf hz
        | cons n' r =>
          cases l' with
          | some l' => cases h
          | none =>
            rw [view_dir (by simp)] at h ⊢
            exact ih h

theorem fillFile_notDir {p : Path} (cs : List Id) : ∀ d : Disk Id, Fs.isDir (d.fs p) = false →
    Fs.isDir ((fillFile H src cenv p cs d).1.fs p) = false := by
  induction cs with
  | nil => intro d h; exact h
  | cons c cs ih =>
    intro d h
    unfold fillFile
    split
    · exact h
    · split
      · exact ih _ (by simp [Fs.put, Fs.isDir])
      · exact h

/-- What is no directory stays none where none is made. -/
theorem call_notDir {op : SysOp Id} {p : Path} (hop : op ≠ .mkdir p) {d : Disk Id} (h : Fs.isDir (d.fs p) = false) :
    Fs.isDir ((call H src cenv env op d).1.fs p) = false := by
  by_contra hc
  rw [Bool.not_eq_false] at hc
  unfold call at hc
  split at hc
  · exact absurd hc (by simp [h])
  split at hc
  · exact absurd hc (by simp [h])
  · exact absurd hc (by simp [h])
  · rename_i hway
    obtain ⟨hne, _⟩ := way_parent hway
    by_cases hrm : ∃ r, op = .rmAll r
    · obtain ⟨r, rfl⟩ := hrm
      by_cases hp : r <+: p
      · unfold callHere at hc
        simp only [SysOp.path] at hc hne
        have hput : ∀ n, Fs.isDir (((d.fs.put r none).touchParent r n) p) = false := by
          intro n
          by_cases e : p = r
          · subst e
            rw [put_touch_at hne]; rfl
          · rw [isDir_same (((only_put _ _ _).trans (only_touch _ _ _)) p e).1]
            exact h
        have hclear : ∀ n, ((d.fs.clear r).touchParent r n) p = none := by
          intro n
          have hc : d.fs.clear r p = none := if_pos (by simpa using hp)
          unfold Fs.touchParent
          split
          · rw [hc]; rfl
          · exact hc
        have hnn : Fs.isDir none = false := rfl
        split at hc <;> simp_all
      · rw [isDir_same (callHere_local (H := H) (src := src) (cenv := cenv) (env := env) (.rmAll r) d p hp).1, h] at hc
        cases hc
    · by_cases e : p = op.path
      · subst e
        cases op with
        | rmAll r => exact absurd ⟨r, rfl⟩ hrm
        | mkdir r => exact absurd rfl hop
        | write r cs =>
          unfold callHere at hc
          simp only [SysOp.path] at hc hne h
          cases ho : d.fs r with
          | none =>
            simp only [ho] at hc
            rw [fillFile_notDir cs _ (by dsimp only; rw [put_touch_at hne]; rfl)] at hc
            cases hc
          | some o =>
            obtain ⟨i, mo, t⟩ := o
            rw [ho] at h
            cases i <;> simp only [ho] at hc
            · rw [fillFile_notDir cs _ (by simp [Fs.put, Fs.isDir])] at hc
              cases hc
            · cases h
            · cases hc
            · cases hc
        | times r t =>
          unfold callHere at hc
          simp only [SysOp.path] at hc hne h
          cases ho : d.fs r with
          | none => simp only [ho] at hc; cases hc
          | some o =>
            obtain ⟨i, mo, t⟩ := o
            rw [ho] at h
            cases i <;> simp [ho, Fs.put, Fs.isDir] at hc h
        | symlink r tgt =>
          unfold callHere at hc
          simp only [SysOp.path] at hc hne h
          cases ho : d.fs r with
          | none => simp only [ho] at hc; rw [put_touch_at hne] at hc; cases hc
          | some o =>
            simp only [ho] at hc h
            rw [hc] at h
            cases h
        | rmFile r =>
          unfold callHere at hc
          simp only [SysOp.path] at hc hne h
          cases ho : d.fs r with
          | none => simp only [ho] at hc; cases hc
          | some o =>
            obtain ⟨i, mo, t⟩ := o
            rw [ho] at h
            cases i <;> simp only [ho] at hc <;> first | (rw [put_touch_at hne] at hc; cases hc) | cases h
        | chmod r mode =>
          unfold callHere at hc
          simp only [SysOp.path] at hc hne h
          cases ho : d.fs r with
          | none => simp only [ho] at hc; cases hc
          | some o =>
            obtain ⟨i, mo, t⟩ := o
            rw [ho] at h
            cases i <;> simp [ho, Fs.put, Fs.isDir] at hc h
      · rw [isDir_same ((callHere_only (fun r hr => hrm ⟨r, hr⟩) d) p e).1, h] at hc
        cases hc

theorem calls_notDir {ops : List (SysOp Id)} {p : Path} (hop : ∀ op ∈ ops, op ≠ .mkdir p) :
    ∀ d : Disk Id, Fs.isDir (d.fs p) = false → Fs.isDir ((calls H src cenv env ops d).1.fs p) = false := by
  induction ops with
  | nil => intro d h; exact h
  | cons op ops ih =>
    intro d h
    have h1 := call_notDir (H := H) (src := src) (cenv := cenv) (env := env) (hop op (by simp)) h
    unfold calls
    split
    · rename_i d' e he; rw [he] at h1; exact h1
    · rename_i d' he
      rw [he] at h1
      exact ih (fun o ho => hop o (List.mem_cons_of_mem _ ho)) d' h1

theorem isDir_item {o : Option Obj} : Fs.isDir o = true ↔ o.map Obj.item = some .dir := by
  rcases o with _ | ⟨i, m, t⟩
  · simp [Fs.isDir]
  · cases i <;> simp [Fs.isDir]

/-- A directory stays one unless it or one above it is removed with all it holds. -/
theorem call_dir {op : SysOp Id} {p : Path} (hop : ∀ r, r <+: p → op ≠ .rmAll r) {d d' : Disk Id}
    (hc : call H src cenv env op d = (d', none)) (h : Fs.isDir (d.fs p) = true) : Fs.isDir (d'.fs p) = true := by
  have hfs : (call H src cenv env op d).1.fs p = d'.fs p := by rw [hc]
  by_cases hp : op.path <+: p
  · unfold call at hc hfs
    split at hc
    · cases hc
    rename_i hv
    rw [if_neg hv] at hfs
    split at hc
    · cases hc; exact h
    · cases hc
    · rename_i hway
      by_cases e : p = op.path
      · subst e
        cases op with
        | rmAll r => exact absurd rfl (hop r (List.prefix_refl _))
        | _ =>
          unfold callHere at hc
          simp only [SysOp.path] at hc h ⊢
          generalize ho : d.fs _ = o at hc h
          rcases o with _ | ⟨i, m, t⟩
          · cases h
          · cases i
            case dir => cases hc <;> simp [Fs.put, Fs.isDir]
            all_goals cases h
      · rw [hway] at hfs
        dsimp only at hfs
        rw [← hfs, isDir_same ((callHere_only (fun r hr => hop r (by rw [hr] at hp; exact hp) hr) d) p e).1]
        exact h
  · rw [← hfs, isDir_same (call_local op d p hp).1]
    exact h

theorem calls_dir {ops : List (SysOp Id)} {p : Path} (hop : ∀ op ∈ ops, ∀ r, r <+: p → op ≠ .rmAll r) :
    ∀ {d d' : Disk Id}, calls H src cenv env ops d = (d', none) → Fs.isDir (d.fs p) = true →
    Fs.isDir (d'.fs p) = true := by
  induction ops with
  | nil => intro d d' h hd; cases h; exact hd
  | cons op ops ih =>
    intro d d' h hd
    unfold calls at h
    split at h
    · cases h
    · rename_i d1 h1
      exact ih (fun o ho => hop o (List.mem_cons_of_mem _ ho)) h (call_dir (hop op (by simp)) h1 hd)

/-- A directory stays one wherever the calls are cut short. -/
theorem cut_dir {ops : List (SysOp Id)} {p : Path} (hop : ∀ op ∈ ops, ∀ r, r <+: p → op ≠ .rmAll r) {d dk : Disk Id}
    (h : CutShort H src cenv env ops d dk) (hd : Fs.isDir (d.fs p) = true) : Fs.isDir (dk.fs p) = true := by
  obtain ⟨a, b, rfl, h | ⟨op, rest, d1, rfl, h, hm⟩⟩ := h
  · exact calls_dir (fun o ho => hop o (List.mem_append_left _ ho)) h hd
  · have h0 := calls_dir (fun o ho => hop o (List.mem_append_left _ ho)) h hd
    have hop1 := hop op (by simp)
    cases hm with
    | @write r cs d' x m t n done is =>
      have h1 := call_dir hop1 done h0
      by_cases e : p = r
      · subst e
        rw [is] at h1
        cases h1
      · show Fs.isDir ((d'.fs.put r _) p) = true
        have : ∀ o, (d'.fs.put r o) p = d'.fs p := fun o => if_neg e
        rw [this]
        exact h1
    | @rmAll r fs dir below others =>
      dsimp only
      rw [others p (fun hr => hop1 r hr rfl)]
      exact h0

omit [LinearOrder Id] in
theorem now_child' {args : RestoreArgs} (h : (s.paths.map lastName).Nodup) {p : Path} (hp : p ∈ s.paths) :
    view (child (now args s look) (lastName p)) = view (look (dest args s p)) := by
  rw [← view_norm (look (dest args s p))]
  unfold now
  rw [child_listing (by rw [List.map_map]; exact h) (List.mem_map.mpr ⟨p, hp, rfl⟩)]

end Backpak
