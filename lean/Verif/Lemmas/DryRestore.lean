import Verif.Lemmas.RestoreCalls

/-!
# A dry restore beside a real one
-/

namespace Backpak

variable {Id : Type} [LinearOrder Id]

section
variable {S T : Type} {R : S → T → Prop} {cb : Event Id → S → Res S} {cb' : Event Id → T → Res T}

/-- One computation follows another. -/
def Follows (R : S → T → Prop) (a : Res S) (b : Res T) : Prop := ∀ s', a = .ok s' → ∃ t', b = .ok t' ∧ R s' t'

theorem compareNodes_follows (hcb : ∀ e s t, R s t → Follows R (cb e s) (cb' e t))
    {down : Path → Id → Id → S → Res S} {down' : Path → Id → Id → T → Res T}
    (hdown : ∀ p a b s t, R s t → Follows R (down p a b s) (down' p a b t)) {path : Path} {x y : Node Id} {s : S} {t : T}
    (h : R s t) : Follows R (compareNodes cb down path x y s) (compareNodes cb' down' path x y t) := by
  unfold compareNodes
  cases x.kind with
  | error e => intro s' h'; cases h'
  | ok kx =>
    cases y.kind with
    | error e => intro s' h'; cases h'
    | ok ky =>
      cases hx : x.contents with
      | file cs =>
        cases hy : y.contents with
        | file cs' =>
          dsimp only
          split
          · exact hcb _ _ _ h
          · split
            · exact hcb _ _ _ h
            · exact hcb _ _ _ h
        | dir _ => exact hcb _ _ _ h
        | link _ => exact hcb _ _ _ h
      | link tgt =>
        cases hy : y.contents with
        | link tgt' =>
          dsimp only
          split
          · exact hcb _ _ _ h
          · split
            · exact hcb _ _ _ h
            · exact hcb _ _ _ h
        | dir _ => exact hcb _ _ _ h
        | file _ => exact hcb _ _ _ h
      | dir a =>
        cases hy : y.contents with
        | link tgt' => exact hcb _ _ _ h
        | file _ => exact hcb _ _ _ h
        | dir b =>
          dsimp only
          intro s' h'
          have h0 : Follows R (if a = b then .ok s else down path a b s) (if a = b then .ok t else down' path a b t) := by
            split
            · intro s1 h1; cases h1; exact ⟨t, rfl, h⟩
            · exact hdown _ _ _ _ _ h
          generalize (if a = b then (.ok s : Res S) else down path a b s) = r at h0 h'
          generalize (if a = b then (.ok t : Res T) else down' path a b t) = r' at h0
          cases r with
          | error e => cases h'
          | ok s1 =>
            obtain ⟨t1, rfl, h1⟩ := h0 s1 rfl
            dsimp only at h' ⊢
            split
            · rename_i hm
              rw [if_pos hm] at h'
              split
              · rename_i hab
                rw [if_pos hab] at h'
                exact hcb _ _ _ h1 _ h'
              · rename_i hab
                rw [if_neg hab] at h'
                cases h'
                exact ⟨t1, rfl, h1⟩
            · rename_i hm
              rw [if_neg hm] at h'
              exact hcb _ _ _ h1 _ h'

/-- Of two comparisons of the same trees whose callbacks follow each other, one follows the other. -/
theorem compareTrees_follows (hcb : ∀ e s t, R s t → Follows R (cb e s) (cb' e t)) {F1 F2 : Forest Id} (k : Nat) :
    ∀ (path : Path) (a b : Id) (s : S) (t : T), R s t →
    Follows R (compareTrees cb F1 F2 k path a b s) (compareTrees cb' F1 F2 k path a b t) := by
  induction k with
  | zero => intro _ _ _ _ _ _ s' h; cases h
  | succ k ih =>
    intro path a b s t hs
    unfold compareTrees
    cases F1.get? a with
    | none => intro s' h; cases h
    | some t1 =>
      cases F2.get? b with
      | none => intro s' h; cases h
      | some t2 =>
        dsimp only
        generalize BSet.ofList (BMap.keys t1 ++ BMap.keys t2) = ns
        induction ns generalizing s t with
        | nil => intro s' h; cases h; exact ⟨t, rfl, hs⟩
        | cons n ns ihn =>
          have h0 : Follows R (compareName cb (compareTrees cb F1 F2 k) path t1 t2 n s)
              (compareName cb' (compareTrees cb' F1 F2 k) path t1 t2 n t) := by
            unfold compareName
            cases BMap.get? t1 n with
            | none =>
              cases BMap.get? t2 n with
              | none => intro s' h; cases h
              | some y => exact hcb _ _ _ hs
            | some x =>
              cases BMap.get? t2 n with
              | none => exact hcb _ _ _ hs
              | some y => exact compareNodes_follows hcb ih hs
          intro s' h
          unfold compareNames at h ⊢
          cases hr : compareName cb (compareTrees cb F1 F2 k) path t1 t2 n s with
          | error e => rw [hr] at h; cases h
          | ok s1 =>
            rw [hr] at h
            obtain ⟨t1', h1, h2⟩ := h0 s1 hr
            rw [h1]
            exact ihn s1 t1' h2 s' h

end

/-- The same restore as a dry run. -/
def RestoreArgs.dry (args : RestoreArgs) : RestoreArgs := { args with dryRun := true }

theorem andPrint_dry {args : RestoreArgs} {F1 F2 : Forest Id} {e : Event Id} {ops ops' : Res (List (SysOp Id))}
    {r : Restored Id} (h : andPrint args F1 F2 e ops = .ok r) : andPrint args.dry F1 F2 e ops' = .ok ([], r.2) := by
  unfold andPrint at h ⊢
  have : (args.dry.times || args.dry.permissions) = (args.times || args.permissions) := rfl
  rw [this]
  split at h
  · cases h
  · rename_i l hl
    have hdry : args.dry.dryRun = true := rfl
    rw [if_pos hdry]
    split at h
    · cases h; rfl
    · split at h
      · cases h
      · cases h; rfl

theorem restoreEvent_dry {args : RestoreArgs} {places : BMap Name Path} {F1 F2 : Forest Id} {e : Event Id}
    {r : Restored Id} (h : restoreEvent args places F1 F2 e = .ok r) :
    restoreEvent args.dry places F1 F2 e = .ok ([], r.2) := by
  cases e with
  | added q y =>
    unfold restoreEvent at h ⊢
    dsimp only at h ⊢
    split at h
    · cases h
    · exact andPrint_dry h
  | removed q x =>
    unfold restoreEvent at h ⊢
    dsimp only at h ⊢
    have : args.dry.delete = args.delete := rfl
    rw [this]
    split at h
    · rename_i hd
      rw [if_pos hd]
      cases h; rfl
    · rename_i hd
      rw [if_neg hd]
      split at h
      · cases h
      · exact andPrint_dry h
  | contents q x y =>
    unfold restoreEvent at h ⊢
    dsimp only at h ⊢
    split at h
    · cases h
    · exact andPrint_dry h
  | metadata q x y =>
    unfold restoreEvent at h ⊢
    dsimp only at h ⊢
    split at h
    · cases h
    · exact andPrint_dry h
  | same q x =>
    unfold restoreEvent at h ⊢
    cases h; rfl
  | retyped q x y =>
    unfold restoreEvent at h ⊢
    dsimp only at h ⊢
    have : args.dry.delete = args.delete := rfl
    rw [this]
    split at h
    · cases h
    · split at h
      · rename_i hd
        rw [if_pos hd]
        split at h
        · cases h
        · rename_i hy
          rw [if_neg hy]
          cases h; rfl
      · rename_i hd
        rw [if_neg hd]
        exact andPrint_dry h

theorem restorer_dry {args : RestoreArgs} {places : BMap Name Path} {F1 F2 : Forest Id} (e : Event Id)
    (s t : Restored Id) (h : t = ([], s.2)) :
    Follows (fun s t => t = ([], s.2)) (restorer args places F1 F2 e s) (restorer args.dry places F1 F2 e t) := by
  intro s' hs
  unfold restorer at hs ⊢
  split at hs
  · cases hs
  · rename_i ops l hr
    rw [restoreEvent_dry hr]
    cases hs
    subst h
    exact ⟨_, rfl, rfl⟩

end Backpak
