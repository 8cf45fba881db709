import Verif.Model.Restore
import Verif.Lemmas.BMap

/-!
# What the calls of a restore can change
-/

namespace Backpak

variable {Id : Type} [LinearOrder Id] {H : Bytes → Id} {src : Source Id} {cenv : CacheEnv Id} {env : FsEnv}

/-- The same but for the modification time. -/
def SameButTime (o o' : Option Obj) : Prop :=
  o'.map (fun x => (x.item, x.mode)) = o.map (fun x => (x.item, x.mode))

theorem SameButTime.refl (o : Option Obj) : SameButTime o o := rfl

theorem SameButTime.trans {a b c : Option Obj} (h : SameButTime a b) (h' : SameButTime b c) : SameButTime a c :=
  Eq.trans h' h

/-- Everything not at or below `p` is as it was, except that the directory `p` is in may have a new
modification time. -/
def Within (p : Path) (fs fs' : Fs) : Prop :=
  ∀ q, ¬ p <+: q → SameButTime (fs q) (fs' q) ∧ (q ≠ p.dropLast → fs' q = fs q)

theorem Within.refl (p : Path) (fs : Fs) : Within p fs fs := fun _ _ => ⟨rfl, fun _ => rfl⟩

theorem Within.trans {p : Path} {a b c : Fs} (h : Within p a b) (h' : Within p b c) : Within p a c :=
  fun q hq => ⟨(h q hq).1.trans (h' q hq).1, fun hd => ((h' q hq).2 hd).trans ((h q hq).2 hd)⟩

theorem within_put (p : Path) (fs : Fs) (o : Option Obj) : Within p fs (fs.put p o) := by
  intro q hq
  have : fs.put p o q = fs q := if_neg (fun (e : q = p) => hq (e ▸ List.prefix_refl _))
  rw [this]
  exact ⟨rfl, fun _ => rfl⟩

theorem within_clear (p : Path) (fs : Fs) : Within p fs (fs.clear p) := by
  intro q hq
  have : fs.clear p q = fs q := if_neg (by simpa using hq)
  rw [this]
  exact ⟨rfl, fun _ => rfl⟩

theorem within_touch (p : Path) (fs : Fs) (now : Int) : Within p fs (fs.touchParent p now) := by
  intro q _
  unfold Fs.touchParent
  by_cases h : q = p.dropLast
  · rw [if_pos h]
    refine ⟨?_, fun h' => absurd h h'⟩
    unfold SameButTime
    cases fs q <;> rfl
  · rw [if_neg h]
    exact ⟨rfl, fun _ => rfl⟩

theorem fillFile_local (p : Path) (cs : List Id) : ∀ d : Disk Id,
    Within p d.fs (fillFile H src cenv p cs d).1.fs := by
  induction cs with
  | nil => intro d; exact Within.refl _ _
  | cons c cs ih =>
    intro d
    unfold fillFile
    split
    · exact Within.refl _ _
    · split
      · exact (within_put _ _ _).trans (ih _)
      · exact Within.refl _ _

theorem callHere_local (op : SysOp Id) (d : Disk Id) :
    Within op.path d.fs (callHere H src cenv env op d).1.fs := by
  unfold callHere
  extract_lets now p d1 enter away
  have henter : ∀ o, Within op.path d.fs (enter o).fs := fun o =>
    (within_put _ _ _).trans (within_touch _ _ _)
  split
  case h_1 => exact (henter _).trans (fillFile_local _ _ _)
  case h_2 => exact (within_put _ _ _).trans (fillFile_local _ _ _)
  all_goals first
    | exact Within.refl _ _
    | exact henter _
    | exact within_put _ _ _
    | exact (within_clear _ _).trans (within_touch _ _ _)

/-- A call changes nothing but what is at its path and below. -/
theorem call_local (op : SysOp Id) (d : Disk Id) : Within op.path d.fs (call H src cenv env op d).1.fs := by
  unfold call
  split
  · exact Within.refl _ _
  split
  · exact Within.refl _ _
  · exact Within.refl _ _
  · exact callHere_local op d

/-! ## Which calls -/

theorem compareName_inv {S : Type} {P : S → Prop} {cb : Event Id → S → Res S}
    {down : Path → Id → Id → S → Res S} (hcb : ∀ e s s', P s → cb e s = .ok s' → P s')
    (hdown : ∀ p a b s s', P s → down p a b s = .ok s' → P s') {path : Path} {t1 t2 : Tree Id} {n : Name}
    {s s' : S} (hs : P s) (h : compareName cb down path t1 t2 n s = .ok s') : P s' := by
  unfold compareName at h
  split at h
  · cases h
  · exact hcb _ _ _ hs h
  · exact hcb _ _ _ hs h
  · unfold compareNodes at h
    split at h
    · cases h
    · cases h
    · split at h
      · split at h
        · cases h
        · rename_i s1 h1
          have hs1 : P s1 := by
            split at h1
            · cases h1; exact hs
            · exact hdown _ _ _ _ _ hs h1
          split at h
          · split at h
            · exact hcb _ _ _ hs1 h
            · cases h; exact hs1
          · exact hcb _ _ _ hs1 h
      · split at h
        · exact hcb _ _ _ hs h
        · split at h <;> exact hcb _ _ _ hs h
      · split at h
        · exact hcb _ _ _ hs h
        · split at h <;> exact hcb _ _ _ hs h
      · exact hcb _ _ _ hs h

/-- What every callback preserves, the comparison preserves. -/
theorem compareTrees_inv {S : Type} {P : S → Prop} {cb : Event Id → S → Res S} {F1 F2 : Forest Id}
    (hcb : ∀ e s s', P s → cb e s = .ok s' → P s') (k : Nat) : ∀ (path : Path) (a b : Id) (s s' : S), P s →
    compareTrees cb F1 F2 k path a b s = .ok s' → P s' := by
  induction k with
  | zero => intro _ _ _ _ _ _ h; cases h
  | succ k ih =>
    intro path a b s s' hs h
    unfold compareTrees at h
    split at h
    · cases h
    · cases h
    · rename_i t1 t2 _ _
      generalize BSet.ofList (BMap.keys t1 ++ BMap.keys t2) = ns at h
      induction ns generalizing s with
      | nil => cases h; exact hs
      | cons n ns ihn =>
        unfold compareNames at h
        split at h
        · cases h
        · rename_i s1 h1
          exact ihn s1 (compareName_inv hcb (fun p a b s s' => ih p a b s s') hs h1) h

/-- All paths are at or below `p`. -/
def Beneath (p : Path) (ops : List (SysOp Id)) : Prop := ∀ op ∈ ops, p <+: op.path

omit [LinearOrder Id] in
theorem under_nil (p : Path) : Beneath p ([] : List (SysOp Id)) := fun _ h => by cases h

omit [LinearOrder Id] in
theorem Beneath.cons {p : Path} {op : SysOp Id} {ops : List (SysOp Id)} (h : p <+: op.path) (h' : Beneath p ops) :
    Beneath p (op :: ops) := by
  intro o ho
  rcases List.mem_cons.mp ho with rfl | ho
  · exact h
  · exact h' o ho

omit [LinearOrder Id] in
theorem Beneath.append {p : Path} {a b : List (SysOp Id)} (h : Beneath p a) (h' : Beneath p b) : Beneath p (a ++ b) := by
  intro o ho
  rcases List.mem_append.mp ho with ho | ho
  · exact h o ho
  · exact h' o ho

theorem metaOps_under {args : RestoreArgs} {p : Path} {x : Node Id} {ops : List (SysOp Id)}
    (h : metaOps args p x = .ok ops) : Beneath p ops := by
  unfold metaOps at h
  extract_lets times at h
  have ht : Beneath p times := by
    unfold times
    split
    · exact Beneath.cons (List.prefix_refl _) (under_nil _)
    · exact under_nil _
  split at h
  · split at h
    · cases h
    · injection h with h; exact h ▸ ht
    · split at h
      · cases h; exact ht.append (Beneath.cons (List.prefix_refl _) (under_nil _))
      · cases h
  · injection h with h; exact h ▸ ht

theorem removeOps_under {p : Path} {x : Node Id} {ops : List (SysOp Id)} (h : removeOps p x = .ok ops) :
    Beneath p ops := by
  unfold removeOps at h
  split at h
  · cases h
  · cases h; exact Beneath.cons (List.prefix_refl _) (under_nil _)
  · cases h; exact Beneath.cons (List.prefix_refl _) (under_nil _)

theorem addOps_under {args : RestoreArgs} {F : Forest Id} (k : Nat) : ∀ {p : Path} {x : Node Id}
    {ops : List (SysOp Id)}, addOps args F k p x = .ok ops → Beneath p ops := by
  induction k with
  | zero => intro p x ops h; cases h
  | succ k ih =>
    intro p x ops h
    unfold addOps at h
    split at h
    · split at h
      · cases h
      · rename_i hm; cases h; exact Beneath.cons (List.prefix_refl _) (metaOps_under hm)
    · cases h; exact Beneath.cons (List.prefix_refl _) (under_nil _)
    · split at h
      · cases h
      · rename_i t ht0
        clear ht0
        split at h
        · cases h
        · rename_i l hl
          split at h
          · cases h
          · rename_i hm
            cases h
            refine Beneath.cons (List.prefix_refl _) (Beneath.append ?_ (metaOps_under hm))
            clear hm
            induction t generalizing l with
            | nil => cases hl; exact under_nil _
            | cons e t iht =>
              unfold addEach at hl
              split at hl
              · cases hl
              · rename_i l1 h1
                split at hl
                · cases hl
                · rename_i l2 h2
                  cases hl
                  refine Beneath.append ?_ (iht l2 h2)
                  intro o ho
                  exact (List.prefix_append _ _).trans (ih h1 o ho)

theorem changeOps_under {args : RestoreArgs} {p : Path} {x : Node Id} {ops : List (SysOp Id)}
    (h : changeOps args p x = .ok ops) : Beneath p ops := by
  unfold changeOps at h
  split at h
  · split at h
    · cases h
    · rename_i hm; cases h; exact Beneath.cons (List.prefix_refl _) (metaOps_under hm)
  · cases h
    exact Beneath.cons (List.prefix_refl _) (Beneath.cons (List.prefix_refl _) (under_nil _))
  · cases h

theorem translate_under {places : BMap Name Path} {q p : Path} (h : translate places q = .ok p) :
    ∃ n pl, BMap.get? places n = some pl ∧ pl <+: p := by
  unfold translate at h
  split at h
  · cases h
  · split at h
    · cases h
    · rename_i n q _ pl hp
      cases h
      exact ⟨_, _, hp, List.prefix_append _ _⟩

theorem andPrint_ops {args : RestoreArgs} {F1 F2 : Forest Id} {e : Event Id} {o : Res (List (SysOp Id))}
    {r : Restored Id} (h : andPrint args F1 F2 e o = .ok r) :
    (args.dryRun = true ∧ r.1 = []) ∨ (args.dryRun = false ∧ o = .ok r.1) := by
  unfold andPrint at h
  split at h
  · cases h
  · split at h
    · rename_i hd
      cases h
      exact .inl ⟨hd, rfl⟩
    · rename_i hd
      split at h
      · cases h
      · cases h
        exact .inr ⟨by simpa using hd, rfl⟩

/-- Every call made for an event is at or below the place of a top-level node. -/
theorem restoreEvent_under {args : RestoreArgs} {places : BMap Name Path} {F1 F2 : Forest Id} {e : Event Id}
    {r : Restored Id} (h : restoreEvent args places F1 F2 e = .ok r) :
    ∀ op ∈ r.1, args.dryRun = false ∧ ∃ n pl, BMap.get? places n = some pl ∧ pl <+: op.path := by
  have fin : ∀ {q p : Path} {ev : Event Id} {o : Res (List (SysOp Id))}, translate places q = .ok p →
      (∀ l, o = .ok l → Beneath p l) → andPrint args F1 F2 ev o = .ok r →
      ∀ op ∈ r.1, args.dryRun = false ∧ ∃ n pl, BMap.get? places n = some pl ∧ pl <+: op.path := by
    intro q p ev o ht hu ha op hop
    rcases andPrint_ops ha with ⟨_, hr⟩ | ⟨hd, ho⟩
    · rw [hr] at hop; cases hop
    · obtain ⟨n, pl, h1, h2⟩ := translate_under ht
      exact ⟨hd, n, pl, h1, h2.trans (hu _ ho op hop)⟩
  unfold restoreEvent at h
  split at h
  · split at h
    · cases h
    · rename_i ht; exact fin ht (fun l => addOps_under _) h
  · split at h
    · cases h; intro _ h; cases h
    · split at h
      · cases h
      · rename_i ht; exact fin ht (fun l => removeOps_under) h
  · split at h
    · cases h
    · rename_i ht; exact fin ht (fun l => changeOps_under) h
  · split at h
    · cases h
    · rename_i ht; exact fin ht (fun l => metaOps_under) h
  · cases h; intro _ h; cases h
  · split at h
    · cases h
    · rename_i ht
      split at h
      · split at h
        · cases h
        · cases h; intro _ h; cases h
      · refine fin ht (fun l hl => ?_) h
        split at hl
        · cases hl
        · rename_i h1
          split at hl
          · cases hl
          · rename_i h2
            cases hl
            exact (removeOps_under h1).append (addOps_under _ h2)

end Backpak
