import Verif.Lemmas.RestoreGood
import Verif.Lemmas.Forest

/-!
# Adding, removing and changing single nodes
-/

namespace Backpak

open Spec

variable {Id : Type} [LinearOrder Id] {X : RCtx Id}

/-- A node of a forest stands for an entry and what is in it. -/
structure NodeOf (PF : List Id → Bytes → Prop) (F : Forest Id) (x : Node Id) (e : Ent) (sub : Dir Bytes) : Prop where
  node : NodeIs PF x e
  down : ∀ s md, x = ⟨.dir s, md⟩ → ∃ u, F.get? s = some u ∧ HeldIn PF F u sub

/-- A node whose metadata can be restored. -/
structure Settable (args : RestoreArgs) (y : Node Id) : Prop where
  kind : y.md.kind = y.contents.kind
  posix : args.permissions = true → ∃ m, y.md = .posix m
  datable : args.times = true → Datable y.md

theorem no_conflict {args : RestoreArgs} {e1 e2 : Path → Option Ent} {q : Path}
    (h : ∀ r, r <+: q → ∀ md, e1 r ≠ some (md, none)) : ¬ Conflict args e1 e2 q := by
  rintro ⟨_, r, hr, ⟨md, h1⟩, _⟩
  exact h r hr md h1

theorem no_conflict_delete {args : RestoreArgs} {e1 e2 : Path → Option Ent} {q : Path}
    (h : args.delete = true) : ¬ Conflict args e1 e2 q := by
  rintro ⟨h', _⟩
  rw [h] at h'
  cases h'

theorem ends_after {args : RestoreArgs} {e1 e2 : Path → Option Ent} {q : Path} {o o' : Option Obj}
    (hn : ¬ Conflict args e1 e2 q) (h : After args o (e2 q) o') : Ends args e1 e2 q o o' :=
  ⟨fun h' => absurd h' hn, fun _ => h⟩

theorem after_before {args : RestoreArgs} {e : Option Ent} {o o' : Option Obj} (h : After args none e o')
    (hc : args.delete = true ∨ o = none ∨ e ≠ none) : After args o e o' := by
  cases e with
  | some e => exact h
  | none =>
    rcases hc with hc | rfl | hc
    · simp only [After, hc, if_true] at h ⊢; exact h
    · exact h
    · exact absurd rfl hc

theorem entry_empty (q : Path) : entry (.nil : Dir Bytes) q = none := by
  cases q with
  | nil => rfl
  | cons n q => rw [entry_cons]; rfl

/-- What there is when a leaf was put somewhere. -/
theorem good_leaf {ops : List (SysOp Id)} {p : Path} {e1 : Path → Option Ent} {md : Meta} {l : Leaf Bytes}
    {sub : Dir Bytes} (h1 : ∀ q, q ≠ [] → e1 q = none) (h2 : ∀ md, e1 [] ≠ some (md, none))
    (h : ∀ d : Disk Id, C33.Settled X.C X.R X.cenv d.reader → Enter d.fs p → Shows (d.fs p) (e1 []) →
      ∃ d' o', Ran X.C X.src X.cenv X.env ops d d' ∧ Fine X.C X.R X.cenv d d' ∧ Only p d.fs d'.fs ∧
        d'.fs p = some o' ∧ o'.item = itemOf (some l) ∧
        (X.args.permissions = true → (∀ t, l ≠ .link t) → ModeOk o' md) ∧
        (X.args.times = true → (∃ y, l = .file y) → TimeOk o' md)) :
    NodeGood X ops p e1 (view (some ((md, some l), sub))) := by
  intro d hr hin hs
  obtain ⟨d', o', g1, g2, g3, g4, g5, g6, g7⟩ := h d hr hin (by simpa using hs [])
  refine ⟨d', g1, g2, g3.within, fun q => ?_⟩
  have hn : ¬ Conflict X.args e1 (view (some ((md, some l), sub))) q := by
    apply no_conflict
    intro r _ md'
    by_cases hr : r = []
    · subst hr; exact h2 md'
    · rw [h1 r hr]; simp
  apply ends_after hn
  by_cases hq : q = []
  · subst hq
    rw [List.append_nil, g4]
    refine ⟨o', rfl, g5, fun h h' => g6 h (fun t ht => h' t (by rw [ht])), fun h h' => g7 h ?_⟩
    obtain ⟨y, hy⟩ := h'
    exact ⟨y, Option.some.inj hy⟩
  · rw [view_leaf hq, g3.below hin.ne hq]
    have := hs q
    rw [h1 q hq] at this
    exact after_shows this

theorem only_of {p : Path} {fs fs' : Fs} (h : ∀ q, q ≠ p → fs' q = fs q) : Only p fs fs' :=
  fun q hq => ⟨by rw [h q hq]; exact SameButTime.refl _, fun _ => h q hq⟩

theorem _root_.Backpak.Spec.Enter.only {fs fs' : Fs} {p : Path} (h : Enter fs p) (hl : Only p fs fs') : Enter fs' p :=
  h.within hl.within

theorem good_write {p : Path} {e1 : Path → Option Ent} {cs : List Id} {md : Meta} {x : Bytes} {sub : Dir Bytes}
    (h1 : ∀ q, q ≠ [] → e1 q = none) (h2 : e1 [] = none ∨ ∃ md z, e1 [] = some (md, some (.file z)))
    (hy : Settable X.args (⟨.file cs, md⟩ : Node Id)) (hx : FileHolds X.C X.R cs x) :
    ∃ l, metaOps X.args p (⟨.file cs, md⟩ : Node Id) = .ok l ∧
      NodeGood X (.write p cs :: l) p e1 (view (some ((md, some (.file x)), sub))) := by
  obtain ⟨l, hl, hrun⟩ := ran_meta (C := X.C) (R := X.R) (src := X.src) (cenv := X.cenv) (env := X.env)
    (args := X.args) (p := p) (o := ⟨.file x, 0, 0⟩) hy.kind hy.posix hy.datable (by simp [Contents.kind])
  refine ⟨l, hl, good_leaf h1 (by rcases h2 with h | ⟨md, z, h⟩ <;> simp [h]) ?_⟩
  intro d hr hin hs
  obtain ⟨d1, m, t, r1, f1, g1, o1⟩ := ran_write (env := X.env) X.he X.hS X.ho hx d hr hin (by
    rcases h2 with h | ⟨md', z, h⟩
    · rw [h] at hs; exact .inl (shows_none.mp hs)
    · rw [h] at hs
      obtain ⟨⟨i, m, t⟩, h3, h4, _⟩ := shows_some hs
      cases h4
      exact .inr ⟨z, m, t, h3⟩)
  obtain ⟨l', hl', hrun'⟩ := ran_meta (C := X.C) (R := X.R) (src := X.src) (cenv := X.cenv) (env := X.env)
    (args := X.args) (p := p) (o := ⟨.file x, m, t⟩) hy.kind hy.posix hy.datable (by simp [Contents.kind])
  rw [hl] at hl'
  cases hl'
  obtain ⟨d2, o', r2, f2, k1, k2, k3, _, k5, _, k7⟩ := hrun' d1 f1.reader (hin.only o1) g1
  refine ⟨d2, o', Ran.cons r1 r2, f1.trans f2, o1.trans (only_of k7), k1, k2, ?_, ?_⟩
  · intro h _; exact k3 h (by simp [Contents.kind])
  · intro h _; exact k5 h

theorem good_symlink {p : Path} {md : Meta} {tgt : Bytes} {sub : Dir Bytes} :
    NodeGood X [.symlink p tgt] p (fun _ => none) (view (some ((md, some (.link tgt)), sub))) := by
  refine good_leaf (fun _ _ => rfl) (by simp) ?_
  intro d hr hin hs
  obtain ⟨d', m, t, g1, g2, g3, g4⟩ := ran_symlink (C := X.C) (src := X.src) (env := X.env) (tgt := tgt) d hr hin
    (shows_none.mp hs)
  exact ⟨d', _, g1, g2, g4, g3, rfl, fun _ h => absurd rfl (h tgt), fun _ h => by obtain ⟨y, hy⟩ := h; cases hy⟩

theorem good_relink {p : Path} {e1 : Path → Option Ent} {md md1 : Meta} {tgt tgt1 : Bytes} {sub : Dir Bytes}
    (h1 : ∀ q, q ≠ [] → e1 q = none) (h2 : e1 [] = some (md1, some (.link tgt1))) :
    NodeGood X [.rmFile p, .symlink p tgt] p e1 (view (some ((md, some (.link tgt)), sub))) := by
  refine good_leaf h1 (by simp [h2]) ?_
  intro d hr hin hs
  rw [h2] at hs
  obtain ⟨o, h3, h4, _⟩ := shows_some hs
  obtain ⟨d1, r1, f1, k1, o1⟩ := ran_rmFile (C := X.C) (src := X.src) (env := X.env) d hr hin h3
    (by rw [h4]; simp [itemOf])
  obtain ⟨d', m, t, g1, g2, g3, g4⟩ := ran_symlink (C := X.C) (src := X.src) (env := X.env) (tgt := tgt) d1 f1.reader
    (hin.only o1) k1
  exact ⟨d', _, Ran.cons r1 g1, f1.trans g2, o1.trans g4, g3, rfl, fun _ h => absurd rfl (h tgt),
    fun _ h => by obtain ⟨y, hy⟩ := h; cases hy⟩

/-- Only the metadata of a leaf changes. -/
theorem good_remeta {PF : List Id → Bytes → Prop} {p : Path} {e1 : Path → Option Ent} {md md1 : Meta} {l : Leaf Bytes} {sub : Dir Bytes}
    {y : Node Id} (h1 : ∀ q, q ≠ [] → e1 q = none) (h2 : e1 [] = some (md1, some l))
    (hy : Settable X.args y) (hn : NodeIs PF y (md, some l)) :
    ∃ ops, metaOps X.args p y = .ok ops ∧ NodeGood X ops p e1 (view (some ((md, some l), sub))) := by
  have hit : (∃ t, itemOf (some l) = .link t) ↔ y.contents.kind = .link := by
    obtain ⟨c, m⟩ := y
    cases c <;> cases l <;> first | exact hn.elim | simp [itemOf, Contents.kind]
  have hmd : y.md = md := by
    obtain ⟨c, m⟩ := y
    cases c <;> cases l <;> first | exact hn.elim | exact hn.1
  have hfl : (∃ t, l = .link t) ↔ y.contents.kind = .link := by
    obtain ⟨c, m⟩ := y
    cases c <;> cases l <;> first | exact hn.elim | simp [Contents.kind]
  obtain ⟨ops, hl, _⟩ := ran_meta (C := X.C) (R := X.R) (src := X.src) (cenv := X.cenv) (env := X.env)
    (args := X.args) (p := p) (o := ⟨itemOf (some l), 0, 0⟩) hy.kind hy.posix hy.datable hit
  refine ⟨ops, hl, good_leaf h1 (by simp [h2]) ?_⟩
  intro d hr hin hs
  rw [h2] at hs
  obtain ⟨o, h3, h4, _⟩ := shows_some hs
  obtain ⟨ops', hl', hrun⟩ := ran_meta (C := X.C) (R := X.R) (src := X.src) (cenv := X.cenv) (env := X.env)
    (args := X.args) (p := p) (o := o) hy.kind hy.posix hy.datable (by rw [h4]; exact hit)
  rw [hl] at hl'
  cases hl'
  obtain ⟨d2, o', r2, f2, k1, k2, k3, _, k5, _, k7⟩ := hrun d hr hin h3
  refine ⟨d2, o', r2, f2, only_of k7, k1, k2.trans h4, ?_, ?_⟩
  · intro h h'
    rw [← hmd]
    exact k3 h (fun e => by obtain ⟨t, ht⟩ := hfl.mpr e; exact h' t ht)
  · intro h _; rw [← hmd]; exact k5 h

/-! ## Directories -/

/-- The calls bring what is in the directory at `p` from one to another. -/
def InsideGood (X : RCtx Id) (ops : List (SysOp Id)) (p : Path) (s1 s2 : Dir Bytes) : Prop :=
  ∀ d : Disk Id, C33.Settled X.C X.R X.cenv d.reader → Enter d.fs p →
    Fs.isDir (d.fs p) = true → (∀ q, q ≠ [] → Shows (d.fs (p ++ q)) (entry s1 q)) →
    ∃ d', Ran X.C X.src X.cenv X.env ops d d' ∧ Fine X.C X.R X.cenv d d' ∧ Within p d.fs d'.fs ∧
      SameButTime (d.fs p) (d'.fs p) ∧
      ∀ q, q ≠ [] → Ends X.args (entry s1) (entry s2) q (d.fs (p ++ q)) (d'.fs (p ++ q))

theorem inside_same {p : Path} {s : Dir Bytes} : InsideGood X [] p s s :=
  fun d hr _ _ hs => ⟨d, Ran.nil d, ⟨hr, rfl⟩, Within.refl _ _, SameButTime.refl _,
    fun q hq => ends_of_shows (hs q hq)⟩

theorem isDir_iff {o : Obj} : Fs.isDir (some o) = true ↔ o.item = .dir := by
  obtain ⟨i, m, t⟩ := o
  cases i <;> simp [Fs.isDir]

theorem same_some {o : Obj} {o' : Option Obj} (h : SameButTime (some o) o') :
    ∃ t, o' = some { o with mtime := t } := by
  unfold SameButTime at h
  cases o' with
  | none => cases h
  | some y =>
    obtain ⟨i, m, t⟩ := o
    obtain ⟨i', m', t'⟩ := y
    simp only [Option.map_some, Option.some.injEq, Prod.mk.injEq] at h
    obtain ⟨rfl, rfl⟩ := h
    exact ⟨t', rfl⟩

theorem conflict_dir {args : RestoreArgs} {md1 md2 : Meta} {s1 s2 : Dir Bytes} {q : Path} (hq : q ≠ []) :
    Conflict args (view (some ((md1, none), s1))) (view (some ((md2, none), s2))) q ↔
      Conflict args (entry s1) (entry s2) q := by
  cases q with
  | nil => exact absurd rfl hq
  | cons n q =>
    rw [conflict_cons (.inr (.inr ⟨md2, rfl⟩)), conflict_cons (.inl (entry_nil s1))]
    rfl

theorem not_conflict_dir {args : RestoreArgs} {e1 : Path → Option Ent} {md2 : Meta} {s2 : Dir Bytes} :
    ¬ Conflict args e1 (view (some ((md2, none), s2))) [] := by
  rintro ⟨_, r, hr, _, md, l, h⟩
  rw [List.prefix_nil] at hr
  subst hr
  cases h

/-- What is in a directory changes and its metadata does not. -/
theorem good_dir {ops : List (SysOp Id)} {p : Path} {s1 s2 : Dir Bytes} {md : Meta}
    (h : InsideGood X ops p s1 s2) :
    NodeGood X ops p (view (some ((md, none), s1))) (view (some ((md, none), s2))) := by
  intro d hr hin hs
  have h0 := hs []
  rw [List.append_nil, view_top] at h0
  obtain ⟨o, h3, h4, h5, h6⟩ := shows_some h0
  obtain ⟨d', r1, f1, w1, g1, g2⟩ := h d hr hin (by rw [h3]; exact isDir_iff.mpr h4)
    (fun q hq => by rw [← view_dir hq]; exact hs q)
  refine ⟨d', r1, f1, w1, fun q => ?_⟩
  by_cases hq : q = []
  · subst hq
    apply ends_after not_conflict_dir
    rw [List.append_nil]
    rw [h3] at g1
    obtain ⟨t, ht⟩ := same_some g1
    rw [ht]
    refine ⟨_, rfl, h4, fun _ _ => h5, fun _ h => ?_⟩
    obtain ⟨y, hy⟩ := h
    cases hy
  · have := g2 q hq
    unfold Ends at this ⊢
    rw [conflict_dir hq, view_dir hq]
    exact this

/-- What is in a directory, then its metadata. -/
theorem dir_meta_run {ops : List (SysOp Id)} {p : Path} {s1 s2 : Dir Bytes} {y : Node Id}
    (h : InsideGood X ops p s1 s2) (hy : Settable X.args y) (hd : y.contents.kind = .dir) :
    ∃ l, metaOps X.args p y = .ok l ∧
      ∀ d : Disk Id, C33.Settled X.C X.R X.cenv d.reader → Enter d.fs p →
        Fs.isDir (d.fs p) = true → (∀ q, q ≠ [] → Shows (d.fs (p ++ q)) (entry s1 q)) →
        ∃ d' o', Ran X.C X.src X.cenv X.env (ops ++ l) d d' ∧ Fine X.C X.R X.cenv d d' ∧ Within p d.fs d'.fs ∧
          d'.fs p = some o' ∧ o'.item = .dir ∧ (X.args.permissions = true → ModeOk o' y.md) ∧
          ∀ q, q ≠ [] → Ends X.args (entry s1) (entry s2) q (d.fs (p ++ q)) (d'.fs (p ++ q)) := by
  obtain ⟨l, hl, _⟩ := ran_meta (C := X.C) (R := X.R) (src := X.src) (cenv := X.cenv) (env := X.env)
    (args := X.args) (p := p) (o := ⟨.dir, 0, 0⟩) hy.kind hy.posix hy.datable (by simp [hd])
  refine ⟨l, hl, ?_⟩
  intro d hr hin h4 hs
  obtain ⟨d', r1, f1, w1, g1, g2⟩ := h d hr hin h4 hs
  obtain ⟨o, h3⟩ : ∃ o, d.fs p = some o := by
    cases hp : d.fs p with
    | none => rw [hp] at h4; cases h4
    | some o => exact ⟨o, rfl⟩
  rw [h3] at g1 h4
  rw [isDir_iff] at h4
  obtain ⟨t, ht⟩ := same_some g1
  obtain ⟨l', hl', hrun⟩ := ran_meta (C := X.C) (R := X.R) (src := X.src) (cenv := X.cenv) (env := X.env)
    (args := X.args) (p := p) (o := { o with mtime := t }) hy.kind hy.posix hy.datable (by simp [h4, hd])
  rw [hl] at hl'
  cases hl'
  obtain ⟨d2, o', r2, f2, k1, k2, k3, _, k5, _, k7⟩ := hrun d' f1.reader (hin.within w1) ht
  refine ⟨d2, o', r1.append r2, f1.trans f2, w1.trans (only_of k7).within, k1, k2.trans h4,
    fun h => k3 h (by rw [hd]; simp), fun q hq => ?_⟩
  rw [k7 _ (below_ne hin.ne hq).1]
  exact g2 q hq

/-- Both change. -/
theorem good_dir_meta {ops : List (SysOp Id)} {p : Path} {s1 s2 : Dir Bytes} {md1 : Meta} {y : Node Id}
    (h : InsideGood X ops p s1 s2) (hy : Settable X.args y) (hd : y.contents.kind = .dir) :
    ∃ l, metaOps X.args p y = .ok l ∧
      NodeGood X (ops ++ l) p (view (some ((md1, none), s1))) (view (some ((y.md, none), s2))) := by
  obtain ⟨l, hl, hrun⟩ := dir_meta_run h hy hd
  refine ⟨l, hl, ?_⟩
  intro d hr hin hs
  have h0 := hs []
  rw [List.append_nil, view_top] at h0
  obtain ⟨o, h3, h4, _⟩ := shows_some h0
  obtain ⟨d', o', r1, f1, w1, k1, k2, k3, g2⟩ := hrun d hr hin (by rw [h3]; exact isDir_iff.mpr h4)
    (fun q hq => by rw [← view_dir hq]; exact hs q)
  refine ⟨d', r1, f1, w1, fun q => ?_⟩
  by_cases hq : q = []
  · subst hq
    apply ends_after not_conflict_dir
    rw [List.append_nil, k1]
    refine ⟨_, rfl, k2, fun h _ => k3 h, fun _ h => ?_⟩
    obtain ⟨y, hy⟩ := h
    cases hy
  · have := g2 q hq
    unfold Ends at this ⊢
    rw [conflict_dir hq, view_dir hq]
    exact this

/-! ## Adding -/

theorem addEach_good {down : Path → Node Id → Res (List (SysOp Id))} {p : Path} {s : Dir Bytes} (t : Tree Id)
    (hn : (BMap.keys t).Nodup)
    (h : ∀ n x, (n, x) ∈ t → ∃ ops, down (p ++ [n]) x = .ok ops ∧
      NodeGood X ops (p ++ [n]) (fun _ => none) (fun q => entry s (n :: q))) :
    ∃ ops, addEach down p t = .ok ops ∧
      ManyGood X ops (BMap.keys t) (fun n => p ++ [n]) (entry .nil) (entry s) := by
  induction t with
  | nil => exact ⟨[], rfl, many_nil⟩
  | cons e t ih =>
    obtain ⟨n, x⟩ := e
    obtain ⟨hn1, hn2⟩ := List.nodup_cons.mp (show (n :: BMap.keys t).Nodup from hn)
    obtain ⟨a, ha, hga⟩ := h n x (by simp)
    obtain ⟨b, hb, hgb⟩ := ih hn2 (fun n' x' h' => h n' x' (List.mem_cons_of_mem _ h'))
    refine ⟨a ++ b, by simp only [addEach, ha, hb], ?_⟩
    refine many_cons (plc := fun n => p ++ [n]) ?_ hgb (fun m hm => apart_child (fun e => hn1 (by rw [show n = m from e]; exact hm)))
    simp only [entry_empty]
    exact hga

omit [LinearOrder Id] in
theorem keys_nodup {t : Tree Id} (h : BMap.Sorted t) : (BMap.keys t).Nodup :=
  (show (BMap.keys t).Pairwise (· < ·) from h).imp (fun {a b} h e => by rw [e] at h; exact lt_irrefl _ h)

/-- Adding a node makes what it stands for. -/
theorem add_good {F : Forest Id} (hF : ForestSorted F)
    (hok : ∀ id t n y, F.get? id = some t → (n, y) ∈ t → Settable X.args y) (k : Nat) :
    ∀ (p : Path) (y : Node Id) (e : Ent) (sub : Dir Bytes), NodeOf (FileHolds X.C X.R) F y e sub → Settable X.args y →
    (∀ s md, y = ⟨.dir s, md⟩ → Tall (InForest F) k s) →
    ∃ ops, addOps X.args F (k + 1) p y = .ok ops ∧ NodeGood X ops p (fun _ => none) (view (some (e, sub))) := by
  induction k with
  | zero =>
    intro p y e sub hn hy ht
    obtain ⟨c, md⟩ := y
    obtain ⟨md', l⟩ := e
    obtain ⟨hn, _⟩ := hn
    cases c with
    | dir s => exact (ht s md rfl).elim
    | file cs =>
      cases l with
      | none => exact hn.elim
      | some l =>
        cases l <;> try exact hn.elim
        obtain ⟨rfl, hx⟩ := hn
        obtain ⟨l, h1, h2⟩ := good_write (X := X) (p := p) (sub := sub) (e1 := fun _ => none) (fun _ _ => rfl) (.inl rfl) hy hx
        exact ⟨_, by simp only [addOps, h1], h2⟩
    | link tgt =>
      cases l with
      | none => exact hn.elim
      | some l =>
        cases l <;> try exact hn.elim
        obtain ⟨rfl, rfl⟩ := hn
        exact ⟨_, rfl, good_symlink⟩
  | succ k ih =>
    intro p y e sub hn hy ht
    obtain ⟨c, md⟩ := y
    obtain ⟨md', l⟩ := e
    obtain ⟨hn, hdown⟩ := hn
    cases c with
    | file cs =>
      cases l with
      | none => exact hn.elim
      | some l =>
        cases l <;> try exact hn.elim
        obtain ⟨rfl, hx⟩ := hn
        obtain ⟨l, h1, h2⟩ := good_write (X := X) (p := p) (sub := sub) (e1 := fun _ => none) (fun _ _ => rfl) (.inl rfl) hy hx
        exact ⟨_, by simp only [addOps, h1], h2⟩
    | link tgt =>
      cases l with
      | none => exact hn.elim
      | some l =>
        cases l <;> try exact hn.elim
        obtain ⟨rfl, rfl⟩ := hn
        exact ⟨_, rfl, good_symlink⟩
    | dir s =>
      cases l with
      | some l => cases l <;> exact hn.elim
      | none =>
        have hmd : md = md' := hn
        subst hmd
        obtain ⟨t, htt, hsub⟩ := ht s md rfl
        obtain ⟨u, hu, hheld⟩ := hdown s md rfl
        have htt' : t = u := InForest.one htt hu
        subst htt'
        obtain ⟨ops, h1, h2⟩ := addEach_good (X := X) (down := addOps X.args F (k + 1)) (p := p) (s := sub) t (keys_nodup (hF s t hu)) (by
          intro n x hx
          have hget : BMap.get? t n = some x := BMap.get?_of_mem_nodup (keys_nodup (hF s t hu)) hx
          rcases child_rel hheld n with ⟨g1, _⟩ | ⟨x', e, g1, g2, g3, g4⟩
          · rw [hget] at g1; cases g1
          · rw [hget] at g1
            cases g1
            obtain ⟨ops, k1, k2⟩ := ih (p ++ [n]) x e.1 e.2 ⟨g3, g4⟩ (hok s t n x hu hx)
              (fun s' md' hx' => hsub s' ⟨n, md', hx' ▸ hx⟩)
            refine ⟨ops, k1, ?_⟩
            have : (fun q => entry sub (n :: q)) = view (some (e.1, e.2)) := by
              funext q
              rw [entry_cons, g2]
            rw [this]
            exact k2)
        have hins : InsideGood X ops p .nil sub := fun d hr hin hd hs =>
          inside_run h2 (by
            intro n hn
            refine ⟨rfl, ?_⟩
            rcases child_rel hheld n with ⟨_, g2⟩ | ⟨x', e, g1, _⟩
            · exact g2
            · exact absurd (BMap.mem_keys_of_mem (BMap.mem_of_get? g1)) hn) d hr hin hd hs
        obtain ⟨l, hl, hrun⟩ := dir_meta_run hins hy rfl
        refine ⟨.mkdir p :: (ops ++ l), by unfold addOps; simp only [hu, h1, hl], ?_⟩
        intro d hr hin hs
        have hnone : ∀ q, d.fs (p ++ q) = none := fun q => shows_none.mp (hs q)
        obtain ⟨d1, m, tm, r1, f1, g1, o1⟩ := ran_mkdir (C := X.C) (src := X.src) (env := X.env) d hr hin
          (by simpa using hnone [])
        obtain ⟨d', o', r2, f2, w2, k1, k2, k3, g2⟩ := hrun d1 f1.reader (hin.only o1) (by rw [g1]; rfl) (by
          intro q hq
          rw [o1.below hin.ne hq, hnone, entry_empty]
          trivial)
        refine ⟨d', Ran.cons r1 r2, f1.trans f2, o1.within.trans w2, fun q => ?_⟩
        apply ends_after (no_conflict (by simp))
        by_cases hq : q = []
        · subst hq
          rw [List.append_nil, k1]
          refine ⟨_, rfl, k2, fun h _ => k3 h, fun _ h => ?_⟩
          obtain ⟨y, hy⟩ := h
          cases hy
        · have := (g2 q hq).2 (no_conflict (by simp [entry_empty]))
          rw [view_dir hq, ← o1.below hin.ne hq]
          exact this

/-! ## Removing -/

theorem remove_run {PF : List Id → Bytes → Prop} {p : Path} {x : Node Id} {e : Ent} {sub : Dir Bytes}
    (hx : NodeIs PF x e) (hk : x.md.kind = x.contents.kind) :
    ∃ ops, removeOps p x = .ok ops ∧ ∀ d : Disk Id, C33.Settled X.C X.R X.cenv d.reader → Enter d.fs p →
      (∀ q, Shows (d.fs (p ++ q)) (view (some (e, sub)) q)) →
      ∃ d', Ran X.C X.src X.cenv X.env ops d d' ∧ Fine X.C X.R X.cenv d d' ∧ Within p d.fs d'.fs ∧
        ∀ q, d'.fs (p ++ q) = none := by
  have leaf : ∀ md l, e = (md, some l) → ∀ d : Disk Id, C33.Settled X.C X.R X.cenv d.reader → Enter d.fs p →
      (∀ q, Shows (d.fs (p ++ q)) (view (some (e, sub)) q)) → (l ≠ .other) →
      ∃ d', Ran X.C X.src X.cenv X.env [.rmFile p] d d' ∧ Fine X.C X.R X.cenv d d' ∧ Within p d.fs d'.fs ∧
        ∀ q, d'.fs (p ++ q) = none := by
    rintro md l rfl d hr hin hs hl
    have h0 := hs []
    rw [List.append_nil, view_top] at h0
    obtain ⟨o, h3, h4, _⟩ := shows_some h0
    obtain ⟨d', r1, f1, g1, o1⟩ := ran_rmFile (C := X.C) (src := X.src) (env := X.env) d hr hin h3
      (by rw [h4]; cases l <;> simp [itemOf])
    refine ⟨d', r1, f1, o1.within, fun q => ?_⟩
    by_cases hq : q = []
    · subst hq; rw [List.append_nil]; exact g1
    · rw [o1.below hin.ne hq]
      have := hs q
      rw [view_leaf hq] at this
      exact shows_none.mp this
  unfold removeOps
  rw [kind_ok hk]
  obtain ⟨c, md⟩ := x
  obtain ⟨md', l⟩ := e
  cases c with
  | dir s =>
    cases l with
    | some l => cases l <;> exact hx.elim
    | none =>
      refine ⟨_, rfl, fun d hr hin hs => ?_⟩
      have h0 := hs []
      rw [List.append_nil, view_top] at h0
      obtain ⟨⟨i, m, t⟩, h3, h4, _⟩ := shows_some h0
      cases h4
      obtain ⟨d', r1, f1, g1, w1⟩ := ran_rmAll (C := X.C) (src := X.src) (env := X.env) d hr hin h3
      exact ⟨d', r1, f1, w1, g1⟩
  | file cs =>
    cases l with
    | none => exact hx.elim
    | some l =>
      cases l <;> try exact hx.elim
      exact ⟨_, rfl, fun d hr hin hs => leaf _ _ rfl d hr hin hs (by simp)⟩
  | link tgt =>
    cases l with
    | none => exact hx.elim
    | some l =>
      cases l <;> try exact hx.elim
      exact ⟨_, rfl, fun d hr hin hs => leaf _ _ rfl d hr hin hs (by simp)⟩

/-- Removing a node leaves nothing. -/
theorem remove_good {PF : List Id → Bytes → Prop} {p : Path} {x : Node Id} {e : Ent} {sub : Dir Bytes}
    (hx : NodeIs PF x e) (hk : x.md.kind = x.contents.kind) (hdel : X.args.delete = true) :
    ∃ ops, removeOps p x = .ok ops ∧ NodeGood X ops p (view (some (e, sub))) (fun _ => none) := by
  obtain ⟨ops, h1, h2⟩ := remove_run (X := X) (p := p) (sub := sub) hx hk
  refine ⟨ops, h1, fun d hr hin hs => ?_⟩
  obtain ⟨d', r1, f1, w1, g1⟩ := h2 d hr hin hs
  refine ⟨d', r1, f1, w1, fun q => ends_after (no_conflict_delete hdel) ?_⟩
  rw [g1]
  simp [After, hdel]

/-- Not removing it leaves it. -/
theorem keep_good {p : Path} {e1 : Path → Option Ent} (hdel : X.args.delete = false) :
    NodeGood X [] p e1 (fun _ => none) := by
  intro d hr _ _
  refine ⟨d, Ran.nil d, ⟨hr, rfl⟩, Within.refl _ _, fun q => ends_after ?_ (by simp [After, hdel])⟩
  rintro ⟨_, r, _, _, md, l, h⟩
  cases h

/-- Removing a node and adding another. -/
theorem replace_good {PF : List Id → Bytes → Prop} {p : Path} {x : Node Id} {e : Ent} {sub : Dir Bytes}
    {b : List (SysOp Id)} {e2 : Ent} {sub2 : Dir Bytes}
    (hx : NodeIs PF x e) (hk : x.md.kind = x.contents.kind) (hdel : X.args.delete = true ∨ x.contents.kind ≠ .dir)
    (hb : NodeGood X b p (fun _ => none) (view (some (e2, sub2)))) :
    ∃ a, removeOps p x = .ok a ∧ NodeGood X (a ++ b) p (view (some (e, sub))) (view (some (e2, sub2))) := by
  obtain ⟨ops, h1, h2⟩ := remove_run (X := X) (p := p) (sub := sub) hx hk
  refine ⟨ops, h1, fun d hr hin hs => ?_⟩
  obtain ⟨d1, r1, f1, w1, g1⟩ := h2 d hr hin hs
  obtain ⟨d2, r2, f2, w2, g2⟩ := hb d1 f1.reader (hin.within w1) (fun q => by rw [g1]; trivial)
  refine ⟨d2, r1.append r2, f1.trans f2, w1.trans w2, fun q => ?_⟩
  have hg := (g2 q).2 (no_conflict (by simp))
  rw [g1] at hg
  have hleaf : X.args.delete = true ∨ ∃ md l, e = (md, some l) := by
    rcases hdel with h | h
    · exact .inl h
    · right
      obtain ⟨c, md⟩ := x
      obtain ⟨md', l⟩ := e
      cases c with
      | dir s => exact absurd rfl h
      | file cs => cases l with
        | none => exact hx.elim
        | some l => exact ⟨_, _, rfl⟩
      | link tgt => cases l with
        | none => exact hx.elim
        | some l => exact ⟨_, _, rfl⟩
  refine ends_after ?_ (after_before hg ?_)
  · rcases hleaf with h | ⟨md, l, rfl⟩
    · exact no_conflict_delete h
    · apply no_conflict
      intro r _ md'
      by_cases hr : r = []
      · subst hr; simp [view]
      · rw [view_leaf hr]; simp
  · rcases hleaf with h | ⟨md, l, rfl⟩
    · exact .inl h
    · by_cases hq : q = []
      · subst hq; exact .inr (.inr (by simp [view]))
      · have := hs q
        rw [view_leaf hq] at this
        exact .inr (.inl (shows_none.mp this))

/-- A directory in the way is left alone. -/
theorem conflict_good {p : Path} {e1 e2 : Path → Option Ent} {md md' : Meta} {l : Leaf Bytes}
    (hdel : X.args.delete = false) (h1 : e1 [] = some (md, none)) (h2 : e2 [] = some (md', some l)) :
    NodeGood X [] p e1 e2 :=
  fun d hr _ _ => ⟨d, Ran.nil d, ⟨hr, rfl⟩, Within.refl _ _, fun q => ⟨fun _ => rfl,
    fun h => absurd ⟨hdel, [], List.nil_prefix, ⟨md, h1⟩, md', l, h2⟩ h⟩⟩

end Backpak
