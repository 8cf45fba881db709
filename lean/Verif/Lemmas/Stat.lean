import Verif.Model.Stat
import Verif.Lemmas.Diff
import Verif.Lemmas.Path

/-!
# Comparing trees as going through a list of events; the `snapshots` command
-/

namespace Backpak

open Spec

/-- Apply a callback to each event. -/
def foldRes {E S : Type} (cb : E → S → Res S) : List E → S → Res S
  | [], s => .ok s
  | e :: l, s =>
    match cb e s with
    | .error x => .error x
    | .ok s' => foldRes cb l s'

theorem foldRes_append {E S : Type} (cb : E → S → Res S) (l l' : List E) (s : S) :
    foldRes cb (l ++ l') s = match foldRes cb l s with
      | .error x => .error x
      | .ok s' => foldRes cb l' s' := by
  induction l generalizing s with
  | nil => rfl
  | cons e l ih =>
    simp only [List.cons_append, foldRes]
    cases cb e s with
    | error x => rfl
    | ok s' => exact ih s'

theorem foldRes_one {E S : Type} (cb : E → S → Res S) (e : E) (s : S) : foldRes cb [e] s = cb e s := by
  simp only [foldRes]
  cases cb e s <;> rfl

variable {Id : Type} [LinearOrder Id]

/-- Something that calls a callback, as a list of events, if it does not fail with some callback. -/
def Eventful (run : ∀ {S : Type}, (Event Id → S → Res S) → S → Res S) : Prop :=
  ∀ {S : Type} (cb : Event Id → S → Res S) (s s' : S), run cb s = .ok s' →
    ∃ E : List (Event Id), ∀ {T : Type} (cb' : Event Id → T → Res T) (t : T), run cb' t = foldRes cb' E t

theorem compareNodes_events (down : ∀ {S : Type}, (Event Id → S → Res S) → Path → Id → Id → S → Res S)
    (hd : ∀ p a b, Eventful (fun cb => down cb p a b)) (path : Path) (x y : Node Id) :
    Eventful (fun cb => compareNodes cb (down cb) path x y) := by
  intro S cb s s' h
  have one : ∀ e : Event Id, ∃ E : List (Event Id), ∀ {T : Type} (cb' : Event Id → T → Res T) (t : T),
      cb' e t = foldRes cb' E t := fun e => ⟨[e], fun cb' t => (foldRes_one cb' e t).symm⟩
  obtain ⟨c, md⟩ := x
  obtain ⟨c', md'⟩ := y
  unfold compareNodes at h ⊢
  dsimp only at h ⊢
  cases hk : Node.kind ⟨c, md⟩ with
  | error e => simp only [hk] at h; cases h
  | ok k =>
    cases hk' : Node.kind ⟨c', md'⟩ with
    | error e => simp only [hk, hk'] at h; cases h
    | ok k' =>
      simp only [hk, hk'] at h ⊢
      cases c with
      | file cs =>
        cases c' with
        | file cs' =>
          dsimp only at h ⊢
          split
          · exact one _
          · split
            · exact one _
            · exact one _
        | dir _ => exact one _
        | link _ => exact one _
      | link tgt =>
        cases c' with
        | link tgt' =>
          dsimp only at h ⊢
          split
          · exact one _
          · split
            · exact one _
            · exact one _
        | dir _ => exact one _
        | file _ => exact one _
      | dir a =>
        cases c' with
        | file _ => exact one _
        | link _ => exact one _
        | dir b =>
          dsimp only at h ⊢
          by_cases hab : a = b
          · simp only [if_pos hab]
            split
            · exact one _
            · exact one _
          · simp only [if_neg hab] at h ⊢
            cases hdn : down cb path a b s with
            | error e => rw [hdn] at h; cases h
            | ok s1 =>
              obtain ⟨E, hE⟩ := hd path a b cb s s1 hdn
              by_cases hm : md = md'
              · simp only [if_pos hm]
                refine ⟨E, fun cb' t => ?_⟩
                have he := hE cb' t
                dsimp only at he
                rw [he]
                cases foldRes cb' E t <;> rfl
              · simp only [if_neg hm]
                refine ⟨E ++ [.metadata path ⟨.dir a, md⟩ ⟨.dir b, md'⟩], fun cb' t => ?_⟩
                have he := hE cb' t
                dsimp only at he
                rw [foldRes_append, he]
                cases foldRes cb' E t with
                | error e => rfl
                | ok t' => exact (foldRes_one _ _ _).symm

theorem compareName_events (down : ∀ {S : Type}, (Event Id → S → Res S) → Path → Id → Id → S → Res S)
    (hd : ∀ p a b, Eventful (fun cb => down cb p a b)) (path : Path) (t1 t2 : Tree Id) (n : Name) :
    Eventful (fun cb => compareName cb (down cb) path t1 t2 n) := by
  intro S cb s s' h
  unfold compareName at h ⊢
  cases h1 : BMap.get? t1 n with
  | none =>
    cases h2 : BMap.get? t2 n with
    | none => simp only [h1, h2] at h; cases h
    | some y => exact ⟨[.added (path ++ [n]) y], fun cb' t => (foldRes_one cb' _ t).symm⟩
  | some x =>
    cases h2 : BMap.get? t2 n with
    | none => exact ⟨[.removed (path ++ [n]) x], fun cb' t => (foldRes_one cb' _ t).symm⟩
    | some y =>
      simp only [h1, h2] at h
      exact compareNodes_events down hd _ x y cb s s' h

theorem compareNames_events (down : ∀ {S : Type}, (Event Id → S → Res S) → Path → Id → Id → S → Res S)
    (hd : ∀ p a b, Eventful (fun cb => down cb p a b)) (path : Path) (t1 t2 : Tree Id) (l : List Name) :
    Eventful (fun cb => compareNames cb (down cb) path t1 t2 l) := by
  induction l with
  | nil => exact fun cb s s' _ => ⟨[], fun cb' t => rfl⟩
  | cons n l ih =>
    intro S cb s s' h
    simp only [compareNames] at h ⊢
    cases h1 : compareName cb (down cb) path t1 t2 n s with
    | error e => rw [h1] at h; cases h
    | ok s1 =>
      rw [h1] at h
      obtain ⟨E, hE⟩ := compareName_events down hd path t1 t2 n cb s s1 h1
      obtain ⟨E', hE'⟩ := ih cb s1 s' h
      refine ⟨E ++ E', fun cb' t => ?_⟩
      rw [foldRes_append]
      have := hE cb' t
      dsimp only at this
      rw [this]
      cases foldRes cb' E t with
      | error e => rfl
      | ok t' => exact hE' cb' t'

/-- A comparison goes through a list of events that does not depend on what is done with them. -/
theorem compareTrees_events (F1 F2 : Forest Id) (k : Nat) : ∀ (p : Path) (a b : Id),
    Eventful (fun cb => compareTrees cb F1 F2 k p a b) := by
  induction k with
  | zero => exact fun p a b S cb s s' h => by cases h
  | succ k ih =>
    intro p a b S cb s s' h
    dsimp only at h ⊢
    unfold compareTrees at h ⊢
    cases h1 : F1.get? a with
    | none => simp only [h1] at h; cases h
    | some t1 =>
      cases h2 : F2.get? b with
      | none => simp only [h1, h2] at h; cases h
      | some t2 =>
        simp only [h1, h2] at h
        exact compareNames_events (fun cb => compareTrees cb F1 F2 k) ih p t1 t2 _ cb s s' h

/-! ## Printing and measuring -/

theorem eachRes_map {A B : Type} {f : A → Res B} {f' : A → B} {l : List A} (h : ∀ a ∈ l, f a = .ok (f' a)) :
    eachRes f l = .ok (l.map f') := by
  induction l with
  | nil => rfl
  | cons a l ih =>
    simp only [eachRes, h a List.mem_cons_self, ih (fun b hb => h b (List.mem_cons_of_mem _ hb)), List.map_cons]

/-- The lines for a list of events. -/
theorem printer_fold {m : Bool} {F1 F2 : Forest Id} {E : List (Event Id)} {out L : List (DiffLine Id)}
    (h : foldRes (printer m F1 F2) E out = .ok L) : ∃ L', L = out ++ L' ∧ ∀ l, l ∈ L' ↔
      ∃ e ∈ E, ∃ le, printEvent m F1 F2 e = .ok le ∧ l ∈ le := by
  induction E generalizing out with
  | nil => cases h; exact ⟨[], by simp, by simp⟩
  | cons e E ih =>
    simp only [foldRes, printer] at h
    cases he : printEvent m F1 F2 e with
    | error x => rw [he] at h; cases h
    | ok le =>
      rw [he] at h
      obtain ⟨L', h1, h2⟩ := ih h
      refine ⟨le ++ L', by rw [h1, List.append_assoc], fun l => ?_⟩
      simp only [List.mem_append, h2, List.mem_cons, exists_eq_or_imp, he, Except.ok.injEq, exists_eq_left']

/-- Printing through `statLine` prints the same lines, if it works for each. -/
theorem statPrinter_fold {g : Graphemes} {m : Bool} {F1 F2 : Forest Id} {pad : Nat} {sizes : Option FileSizes}
    {f : DiffLine Id → StatLine Id} {E : List (Event Id)} {out L : List (DiffLine Id)}
    (h : foldRes (printer m F1 F2) E out = .ok (out ++ L)) (hf : ∀ l ∈ L, statLine g pad sizes l = .ok (f l))
    (out' : List (StatLine Id)) :
    foldRes (statPrinter g m F1 F2 pad sizes) E out' = .ok (out' ++ L.map f) := by
  induction E generalizing out out' L with
  | nil =>
    simp only [foldRes, Except.ok.injEq] at h
    obtain rfl : L = [] := by simpa using h
    simp [foldRes]
  | cons e E ih =>
    simp only [foldRes, printer, statPrinter] at h ⊢
    cases he : printEvent m F1 F2 e with
    | error x => rw [he] at h; cases h
    | ok le =>
      simp only [he] at h ⊢
      obtain ⟨L', h1, h2⟩ := printer_fold h
      have : L = le ++ L' := by
        rw [List.append_assoc] at h1
        exact List.append_cancel_left h1
      subst this
      rw [← List.append_assoc] at h
      rw [eachRes_map (fun a ha => hf a (List.mem_append_left _ ha))]
      dsimp only
      rw [ih h (fun l hl => hf l (List.mem_append_right _ hl)), List.map_append, List.append_assoc]

omit [LinearOrder Id] in
theorem measureLines_ge (g : Graphemes) (l : List (Line Id)) (n : Nat) : n ≤ measureLines g l n ∧
    ∀ e ∈ l, pathLength g e.1 e.2 ≤ measureLines g l n := by
  induction l generalizing n with
  | nil => simp [measureLines]
  | cons a l ih =>
    have := ih (max n (pathLength g a.1 a.2))
    simp only [measureLines, List.foldl_cons, List.mem_cons, forall_eq_or_imp] at this ⊢
    exact ⟨le_trans (le_max_left _ _) this.1, le_trans (le_max_right _ _) this.1, this.2⟩

/-- What is measured for an event covers the lines printed for it. -/
theorem measureEvent_ok {g : Graphemes} {m : Bool} {F1 F2 : Forest Id} {e : Event Id} {le : List (DiffLine Id)}
    (h : printEvent m F1 F2 e = .ok le) (n : Nat) : ∃ n', measureEvent g m F1 F2 e n = .ok n' ∧ n ≤ n' ∧
      ∀ l ∈ le, pathLength g l.2.1 l.2.2 ≤ n' := by
  have all : ∀ {F : Forest Id} {sg : Sign} {p : Path} {x : Node Id} {l : List (DiffLine Id)}
      (_ : printAll F sg p x = .ok l) (n : Nat), ∃ n', measureAll g F p x n = .ok n' ∧ n ≤ n' ∧
        ∀ e ∈ l, pathLength g e.2.1 e.2.2 ≤ n' := by
    intro F sg p x l h n
    simp only [printAll, measureAll] at h ⊢
    cases hw : walkNode F p x with
    | error e => rw [hw] at h; cases h
    | ok w =>
      simp only [hw, Except.ok.injEq] at h
      subst h
      have := measureLines_ge g w n
      refine ⟨_, rfl, this.1, fun e he => ?_⟩
      obtain ⟨a, ha, rfl⟩ := List.mem_map.mp he
      exact this.2 a ha
  cases e with
  | added p y => exact all h n
  | removed p x => exact all h n
  | same p x => cases h; exact ⟨n, rfl, Nat.le_refl _, by simp⟩
  | metadata p x y =>
    simp only [printEvent, Except.ok.injEq] at h
    subst h
    cases m with
    | false => exact ⟨n, rfl, Nat.le_refl _, by simp⟩
    | true =>
      have := measureLines_ge g [(p, y)] n
      exact ⟨_, rfl, this.1, by simpa using this.2⟩
  | contents p x y =>
    simp only [printEvent, measureEvent] at h ⊢
    cases hx : x.contents with
    | link tgt =>
      simp only [hx, Except.ok.injEq] at h ⊢
      subst h
      have := measureLines_ge g [(p, x), (p, y)] n
      exact ⟨_, rfl, this.1, by simpa using this.2⟩
    | file cs =>
      simp only [hx, Except.ok.injEq] at h ⊢
      subst h
      have := measureLines_ge g [(p, x)] n
      exact ⟨_, rfl, this.1, by simpa using this.2⟩
    | dir sub =>
      simp only [hx, Except.ok.injEq] at h ⊢
      subst h
      have := measureLines_ge g [(p, x)] n
      exact ⟨_, rfl, this.1, by simpa using this.2⟩
  | retyped p x y =>
    simp only [printEvent, measureEvent] at h ⊢
    cases h1 : printAll F1 .minus p x with
    | error e => rw [h1] at h; cases h
    | ok l1 =>
      cases h2 : printAll F2 .plus p y with
      | error e => rw [h1, h2] at h; cases h
      | ok l2 =>
        simp only [h1, h2, Except.ok.injEq] at h
        subst h
        obtain ⟨n1, a1, a2, a3⟩ := all h1 n
        obtain ⟨n2, b1, b2, b3⟩ := all h2 n1
        refine ⟨n2, by rw [a1]; exact b1, le_trans a2 b2, fun l hl => ?_⟩
        rcases List.mem_append.mp hl with hl | hl
        · exact le_trans (a3 l hl) b2
        · exact b3 l hl

theorem measure_fold {g : Graphemes} {m : Bool} {F1 F2 : Forest Id} {E : List (Event Id)} {out L : List (DiffLine Id)}
    (h : foldRes (printer m F1 F2) E out = .ok (out ++ L)) (n : Nat) :
    ∃ n', foldRes (measureEvent g m F1 F2) E n = .ok n' ∧ n ≤ n' ∧ ∀ l ∈ L, pathLength g l.2.1 l.2.2 ≤ n' := by
  induction E generalizing out n L with
  | nil =>
    simp only [foldRes, Except.ok.injEq] at h
    obtain rfl : L = [] := by simpa using h
    exact ⟨n, rfl, Nat.le_refl _, by simp⟩
  | cons e E ih =>
    simp only [foldRes, printer] at h ⊢
    cases he : printEvent m F1 F2 e with
    | error x => rw [he] at h; cases h
    | ok le =>
      simp only [he] at h
      obtain ⟨L', h1, h2⟩ := printer_fold h
      have : L = le ++ L' := by
        rw [List.append_assoc] at h1
        exact List.append_cancel_left h1
      subst this
      rw [← List.append_assoc] at h
      obtain ⟨n1, a1, a2, a3⟩ := measureEvent_ok (g := g) he n
      obtain ⟨n2, b1, b2, b3⟩ := ih h n1
      refine ⟨n2, by rw [a1]; exact b1, le_trans a2 b2, fun l hl => ?_⟩
      rcases List.mem_append.mp hl with hl | hl
      · exact le_trans (a3 l hl) b2
      · exact b3 l hl

omit [LinearOrder Id] in
/-- A line is no longer than was measured. -/
theorem lineString_count (g : Graphemes) (p : Path) (x : Node Id) : g.count (lineString p x) ≤ pathLength g p x := by
  unfold lineString pathLength
  cases x.contents with
  | file cs => exact Nat.le_refl _
  | dir sub =>
    dsimp only
    split
    · exact Nat.le_refl _
    · exact le_trans (g.append _ _) (by rw [g.slash])
  | link tgt =>
    dsimp only
    refine le_trans (g.append _ _) ?_
    have := g.append (ascii " -> ") tgt
    rw [g.arrow] at this
    omega

/-- Whatever is printed without sizes has its plain text. -/
theorem treeDiff_plain {g : Graphemes} {m : Bool} {F1 F2 : Forest Id} {a b : Id} {L : List (DiffLine Id)}
    (h : diffForests m F1 F2 a b = .ok L) :
    treeDiff g m F1 F2 a b 0 none = .ok (L.map (fun l => ⟨l, lineString l.2.1 l.2.2, none⟩)) := by
  obtain ⟨E, hE⟩ := compareTrees_events F1 F2 (F1.length + 1) [] a b (printer m F1 F2) [] L h
  have h' : foldRes (printer m F1 F2) E [] = .ok ([] ++ L) := by rw [← hE]; exact h
  unfold treeDiff
  have := hE (statPrinter g m F1 F2 0 none) []
  dsimp only at this
  rw [this, statPrinter_fold h' (f := fun l => ⟨l, lineString l.2.1 l.2.2, none⟩) (fun l _ => rfl)]
  rfl

/-- Measuring works whenever printing does, and is enough. -/
theorem measurePad_ok {g : Graphemes} {m : Bool} {F1 F2 : Forest Id} {a b : Id} {L : List (DiffLine Id)}
    (h : diffForests m F1 F2 a b = .ok L) :
    ∃ pad, measurePad g m F1 F2 a b = .ok pad ∧ ∀ l ∈ L, pathLength g l.2.1 l.2.2 ≤ pad := by
  obtain ⟨E, hE⟩ := compareTrees_events F1 F2 (F1.length + 1) [] a b (printer m F1 F2) [] L h
  have h' : foldRes (printer m F1 F2) E [] = .ok ([] ++ L) := by rw [← hE]; exact h
  obtain ⟨n, h1, _, h2⟩ := measure_fold (g := g) h' 0
  refine ⟨n, ?_, h2⟩
  unfold measurePad
  have := hE (measureEvent g m F1 F2) 0
  dsimp only at this
  rw [this, h1]

/-- A line with sizes, padded. -/
def padded (g : Graphemes) (pad : Nat) (zs : FileSizes) (l : DiffLine Id) : StatLine Id :=
  ⟨l, lineString l.2.1 l.2.2 ++ List.replicate (pad - g.count (lineString l.2.1 l.2.2)) 32, zs.at l.2.1⟩

theorem treeDiff_sizes {g : Graphemes} {m : Bool} {F1 F2 : Forest Id} {a b : Id} {L : List (DiffLine Id)}
    (h : diffForests m F1 F2 a b = .ok L) {pad : Nat} {zs : FileSizes}
    (hpad : ∀ l ∈ L, pathLength g l.2.1 l.2.2 ≤ pad) (hne : ∀ l ∈ L, lineString l.2.1 l.2.2 ≠ []) :
    treeDiff g m F1 F2 a b pad (some zs) = .ok (L.map (padded g pad zs)) := by
  obtain ⟨E, hE⟩ := compareTrees_events F1 F2 (F1.length + 1) [] a b (printer m F1 F2) [] L h
  have h' : foldRes (printer m F1 F2) E [] = .ok ([] ++ L) := by rw [← hE]; exact h
  unfold treeDiff
  have := hE (statPrinter g m F1 F2 pad (some zs)) []
  dsimp only at this
  rw [this, statPrinter_fold h' (f := padded g pad zs) (fun l hl => ?_)]
  · rfl
  · have h1 := lineString_count g l.2.1 l.2.2
    have h2 := hpad l hl
    have h3 := g.pos _ (hne l hl)
    unfold statLine
    dsimp only
    rw [if_neg (by omega), if_pos (by omega)]
    rfl

end Backpak
