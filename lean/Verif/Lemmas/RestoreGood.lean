import Verif.Lemmas.RestoreRun

/-!
# What a restore leaves, piece by piece
-/

namespace Backpak

open Spec

variable {Id : Type} [LinearOrder Id]

/-- What a restore works with. -/
structure RCtx (Id : Type) [LinearOrder Id] where
  C : Codec Id
  R : Repo Id
  src : Source Id
  cenv : CacheEnv Id
  env : FsEnv
  args : RestoreArgs
  he : C33.EnvOk cenv
  hS : Sound C R
  ho : Opens R src

/-- The calls bring what is at and below `p` from what the first view says to what the second
says. -/
def NodeGood (X : RCtx Id) (ops : List (SysOp Id)) (p : Path) (e1 e2 : Path → Option Ent) : Prop :=
  ∀ d : Disk Id, C33.Settled X.C X.R X.cenv d.reader → Enter d.fs p → (∀ q, Shows (d.fs (p ++ q)) (e1 q)) →
    ∃ d', Ran X.C X.src X.cenv X.env ops d d' ∧ Fine X.C X.R X.cenv d d' ∧ Within p d.fs d'.fs ∧
      ∀ q, Ends X.args e1 e2 q (d.fs (p ++ q)) (d'.fs (p ++ q))

/-- The same for several places, one for each name. -/
def ManyGood (X : RCtx Id) (ops : List (SysOp Id)) (ns : List Name) (plc : Name → Path)
    (e1 e2 : Path → Option Ent) : Prop :=
  ∀ d : Disk Id, C33.Settled X.C X.R X.cenv d.reader →
    (∀ n ∈ ns, Enter d.fs (plc n) ∧ ∀ q, Shows (d.fs (plc n ++ q)) (e1 (n :: q))) →
    ∃ d', Ran X.C X.src X.cenv X.env ops d d' ∧ Fine X.C X.R X.cenv d d' ∧
      (∀ n ∈ ns, ∀ q, Ends X.args (fun r => e1 (n :: r)) (fun r => e2 (n :: r)) q
        (d.fs (plc n ++ q)) (d'.fs (plc n ++ q))) ∧
      ∀ q, (∀ n ∈ ns, ¬ plc n <+: q) → SameButTime (d.fs q) (d'.fs q) ∧
        ((∀ n ∈ ns, q ≠ (plc n).dropLast) → d'.fs q = d.fs q)

theorem shows_none {o : Option Obj} : Shows o none ↔ o = none := by
  cases o <;> simp [Shows]

theorem shows_some {o : Option Obj} {e : Ent} (h : Shows o (some e)) :
    ∃ x, o = some x ∧ x.item = itemOf e.2 ∧ ModeOk x e.1 ∧ TimeOk x e.1 := by
  cases o with
  | none => exact h.elim
  | some x => exact ⟨x, rfl, h⟩

theorem after_shows {args : RestoreArgs} {o : Option Obj} {e : Option Ent} (h : Shows o e) : After args o e o := by
  cases e with
  | none =>
    rw [shows_none.mp h]
    simp [After]
  | some e =>
    obtain ⟨x, rfl, h1, h2, h3⟩ := shows_some h
    exact ⟨x, rfl, h1, fun _ _ => h2, fun _ _ => h3⟩

theorem ends_of_shows {args : RestoreArgs} {e1 e2 : Path → Option Ent} {q : Path} {o : Option Obj}
    (h : Shows o (e2 q)) : Ends args e1 e2 q o o := ⟨fun _ => rfl, fun _ => after_shows h⟩

/-- Doing nothing where nothing differs. -/
theorem good_same {X : RCtx Id} {p : Path} {e : Path → Option Ent} : NodeGood X [] p e e :=
  fun d hr _ hs => ⟨d, Ran.nil d, ⟨hr, rfl⟩, Within.refl _ _, fun q => ends_of_shows (hs q)⟩

/-! ## Several places -/

theorem _root_.Backpak.Spec.Apart.symm {p q : Path} (h : Apart p q) : Apart q p := ⟨h.2, h.1⟩

theorem _root_.Backpak.Spec.Apart.below {p q r : Path} (h : Apart p q) : ¬ p <+: q ++ r := by
  intro h'
  rcases List.prefix_or_prefix_of_prefix h' (List.prefix_append q r) with h1 | h1
  · exact h.1 h1
  · exact h.2 h1

theorem _root_.Backpak.Spec.Apart.parent {p q r : Path} (h : Apart p q) : q ++ r ≠ p.dropLast := by
  intro e
  have h1 : q <+: p.dropLast := e ▸ List.prefix_append q r
  exact h.2 (h1.trans (List.dropLast_prefix p))

theorem apart_child {p : Path} {n m : Name} (h : n ≠ m) : Apart (p ++ [n]) (p ++ [m]) := by
  constructor <;> intro h' <;> rw [List.prefix_append_right_inj] at h' <;>
    obtain ⟨r, hr⟩ := h' <;> simp at hr
  · exact h hr.1
  · exact h hr.1.symm

theorem many_nil {X : RCtx Id} {plc : Name → Path} {e1 e2 : Path → Option Ent} : ManyGood X [] [] plc e1 e2 :=
  fun d hr _ => ⟨d, Ran.nil d, ⟨hr, rfl⟩, (fun _ h => by cases h), fun _ _ => ⟨SameButTime.refl _, fun _ => rfl⟩⟩

theorem many_cons {X : RCtx Id} {plc : Name → Path} {e1 e2 : Path → Option Ent} {n : Name} {ns : List Name}
    {a b : List (SysOp Id)}
    (ha : NodeGood X a (plc n) (fun q => e1 (n :: q)) (fun q => e2 (n :: q)))
    (hb : ManyGood X b ns plc e1 e2) (hap : ∀ m ∈ ns, Apart (plc n) (plc m)) :
    ManyGood X (a ++ b) (n :: ns) plc e1 e2 := by
  intro d hr hin
  obtain ⟨d1, r1, f1, w1, g1⟩ := ha d hr (hin n (by simp)).1 (hin n (by simp)).2
  have hsame : ∀ m ∈ ns, ∀ q, d1.fs (plc m ++ q) = d.fs (plc m ++ q) :=
    fun m hm q => (w1 _ (hap m hm).below).2 (hap m hm).parent
  obtain ⟨d2, r2, f2, g2, w2⟩ := hb d1 f1.reader (by
    intro m hm
    obtain ⟨h1, h2⟩ := hin m (List.mem_cons_of_mem _ hm)
    refine ⟨h1.mono (fun k hk => (w1 _ (fun h => ?_)).1), fun q => by rw [hsame m hm]; exact h2 q⟩
    exact (hap m hm).1 (h.trans (List.take_prefix _ _)))
  refine ⟨d2, r1.append r2, f1.trans f2, ?_, ?_⟩
  · intro m hm q
    rcases List.mem_cons.mp hm with rfl | hm
    · have : d2.fs (plc m ++ q) = d1.fs (plc m ++ q) :=
        (w2 _ (fun m' hm' => (hap m' hm').symm.below)).2 (fun m' hm' => (hap m' hm').symm.parent)
      rw [this]
      exact g1 q
    · rw [← hsame m hm q]
      exact g2 m hm q
  · intro q hq
    obtain ⟨h1, h2⟩ := w1 q (hq n (by simp))
    obtain ⟨h3, h4⟩ := w2 q (fun m hm => hq m (List.mem_cons_of_mem _ hm))
    exact ⟨h1.trans h3, fun hd => (h4 (fun m hm => hd m (List.mem_cons_of_mem _ hm))).trans (h2 (hd n (by simp)))⟩

/-! ## Views -/

theorem entry_nil (d : Dir Bytes) : entry d [] = none := by cases d <;> rfl

theorem entry_cons (d : Dir Bytes) (n : Name) (q : Path) : entry d (n :: q) = view (child d n) q := by
  cases q with
  | nil =>
    simp only [entry]
    cases hc : child d n with
    | none => rfl
    | some c => rfl
  | cons m q =>
    simp only [entry]
    cases hc : child d n with
    | none => rfl
    | some c =>
      obtain ⟨⟨md, l⟩, sub⟩ := c
      cases l <;> rfl

theorem view_dir {md : Meta} {sub : Dir Bytes} {q : Path} (hq : q ≠ []) :
    view (some ((md, none), sub)) q = entry sub q := by
  cases q with
  | nil => exact absurd rfl hq
  | cons _ _ => rfl

theorem view_leaf {md : Meta} {l : Leaf Bytes} {sub : Dir Bytes} {q : Path} (hq : q ≠ []) :
    view (some ((md, some l), sub)) q = none := by
  cases q with
  | nil => exact absurd rfl hq
  | cons _ _ => rfl

theorem view_top {e : Ent} {sub : Dir Bytes} : view (some (e, sub)) [] = some e := rfl

theorem conflict_cons {args : RestoreArgs} {e1 e2 : Path → Option Ent} {n : Name} {q : Path}
    (h : e1 [] = none ∨ e2 [] = none ∨ ∃ md, e2 [] = some (md, none)) :
    Conflict args e1 e2 (n :: q) ↔ Conflict args (fun r => e1 (n :: r)) (fun r => e2 (n :: r)) q := by
  constructor
  · rintro ⟨hd, r, hr, ⟨md, h1⟩, md', l, h2⟩
    cases r with
    | nil =>
      rcases h with h | h | ⟨md, h⟩
      · rw [h] at h1; cases h1
      · rw [h] at h2; cases h2
      · rw [h] at h2; cases h2
    | cons m r =>
      rw [List.cons_prefix_cons] at hr
      obtain ⟨rfl, hr⟩ := hr
      exact ⟨hd, r, hr, ⟨md, h1⟩, md', l, h2⟩
  · rintro ⟨hd, r, hr, h1, h2⟩
    exact ⟨hd, n :: r, by rw [List.cons_prefix_cons]; exact ⟨rfl, hr⟩, h1, h2⟩

/-- What is in two directories being brought from one to the other. -/
theorem inside_run {X : RCtx Id} {ops : List (SysOp Id)} {ns : List Name} {p : Path} {s1 s2 : Dir Bytes}
    (h : ManyGood X ops ns (fun n => p ++ [n]) (entry s1) (entry s2))
    (hns : ∀ n, n ∉ ns → child s1 n = none ∧ child s2 n = none)
    (d : Disk Id) (hr : C33.Settled X.C X.R X.cenv d.reader) (hin : Enter d.fs p)
    (hd : Fs.isDir (d.fs p) = true) (hs : ∀ q, q ≠ [] → Shows (d.fs (p ++ q)) (entry s1 q)) :
    ∃ d', Ran X.C X.src X.cenv X.env ops d d' ∧ Fine X.C X.R X.cenv d d' ∧ Within p d.fs d'.fs ∧
      SameButTime (d.fs p) (d'.fs p) ∧
      ∀ q, q ≠ [] → Ends X.args (entry s1) (entry s2) q (d.fs (p ++ q)) (d'.fs (p ++ q)) := by
  obtain ⟨d', r1, f1, g1, w1⟩ := h d hr (by
    intro n _
    refine ⟨⟨by simp, ?_, by simpa using hd⟩, fun q => ?_⟩
    · intro k hk
      rw [List.length_append, List.length_singleton] at hk
      by_cases hk' : k < p.length
      · rw [List.take_append_of_le_length (le_of_lt hk')]
        exact hin.links k hk'
      · have : k = p.length := by omega
        subst this
        rw [List.take_left]
        unfold Fs.isDir at hd
        unfold Fs.isLink
        split at hd
        · rename_i he; rw [he]
        · cases hd
    · have := hs (n :: q) (by simp)
      rwa [List.append_assoc])
  have hpre : ∀ n, ¬ p ++ [n] <+: p := by
    intro n h'
    have := h'.length_le
    rw [List.length_append, List.length_singleton] at this
    omega
  refine ⟨d', r1, f1, ?_, ?_, ?_⟩
  · intro q hq
    obtain ⟨h1, h2⟩ := w1 q (fun n _ h' => hq ((List.prefix_append _ _).trans h'))
    refine ⟨h1, fun _ => h2 (fun n _ e => hq ?_)⟩
    rw [e]; simp
  · exact (w1 p (fun n _ => hpre n)).1
  · intro q hq
    cases q with
    | nil => exact absurd rfl hq
    | cons n q =>
      by_cases hn : n ∈ ns
      · have := g1 n hn q
        rw [List.append_assoc] at this
        simp only [List.singleton_append] at this
        unfold Ends at this ⊢
        rw [conflict_cons (.inl (entry_nil s1))]
        exact this
      · obtain ⟨h1, h2⟩ := hns n hn
        have hne : ∀ m ∈ ns, Apart (p ++ [m]) (p ++ [n]) := fun m hm => apart_child (fun e => hn (e ▸ hm))
        have : d'.fs (p ++ n :: q) = d.fs (p ++ n :: q) := by
          have hw := w1 (p ++ [n] ++ q) (fun m hm => (hne m hm).below)
          have := hw.2 (fun m hm => (hne m hm).parent)
          rwa [List.append_assoc] at this
        rw [this]
        apply ends_of_shows
        have := hs (n :: q) (by simp)
        rw [entry_cons, h1] at this
        rw [entry_cons, h2]
        exact this

end Backpak
