import Verif.Lemmas.Grow

/-!
# Which packs a run can form, and what its work-in-progress file lists
-/

namespace Backpak.Pipeline

variable {Id : Type} [LinearOrder Id]

/-- The blobs of one kind, in order. -/
def ofKind (k : Kind) (bs : List (Blob Id)) : List (Blob Id) := bs.filter (fun b => b.kind = k)

/-- A pack that a run could form: a run of consecutive blobs of one kind that it sends. -/
def FormedBy (main : List (Op Id)) (cur : Pack Id) : Prop :=
  cur ≠ [] ∧ ∃ k, cur <:+: ofKind k (sends main)

/-- The blobs of the current pack. -/
def inHand : PackerState Id → List (Blob Id)
  | .recv cur => cur
  | _ => []

/-- Blobs reach the packers in order. -/
def InOrder (main0 : List (Op Id)) (s : State Id) : Prop :=
  ∀ k, ∃ pre, pre ++ inHand (s.pk k) ++ ofKind k (sends s.main) = ofKind k (sends main0)

theorem inOrder_upd {main0 : List (Op Id)} {s : State Id} (h : InOrder main0 s) {k0 : Kind}
    {v : PackerState Id} (hv : inHand v = []) : ∀ k, ∃ pre,
      pre ++ inHand (Function.update s.pk k0 v k) ++ ofKind k (sends s.main) = ofKind k (sends main0) := by
  intro k
  obtain ⟨pre, hp⟩ := h k
  by_cases hk : k = k0
  · subst hk
    rw [Function.update_self, hv]
    exact ⟨pre ++ inHand (s.pk k), by rw [List.append_nil]; exact hp⟩
  · rw [Function.update_of_ne hk]
    exact ⟨pre, hp⟩

theorem inOrder_step {c : Cfg Id} {main0 : List (Op Id)} {s t : State Id} (h : InOrder main0 s)
    (hs : Step c s t) : InOrder main0 t := by
  cases hs with
  | mainUp p bs rest hm _ _ _ =>
    intro k
    obtain ⟨pre, hp⟩ := h k
    rw [hm] at hp
    exact ⟨pre, hp⟩
  | mainSend b cur rest hm _ hk =>
    intro k
    obtain ⟨pre, hp⟩ := h k
    rw [hm] at hp
    have hsd : sends (Op.send b :: rest) = b :: sends rest := rfl
    rw [hsd] at hp
    by_cases hkk : k = b.kind
    · subst hkk
      refine ⟨pre, ?_⟩
      rw [hk] at hp
      rw [← hp]
      simp [Function.update_self, inHand, ofKind]
    · refine ⟨pre, ?_⟩
      rw [← hp]
      simp only [Function.update_of_ne hkk, ofKind]
      rw [List.filter_cons_of_neg (by simpa using fun e => hkk e.symm)]
  | endPack k cur _ _ _ _ => exact inOrder_upd h rfl
  | packerExit k cur _ _ _ _ => exact inOrder_upd h rfl
  | packerUp k id bs _ _ _ => exact inOrder_upd h rfl
  | packerIdx k id bs x _ _ _ _ => exact inOrder_upd h rfl
  | packerDup k id bs x _ _ _ _ => exact inOrder_upd h rfl
  | spawn _ _ | close _ _ | ixPersist _ _ _ | ixEmpty _ _ _ _ _ _ | ixClosed _ _ _ _ _ _
  | ixPersistLast _ _ | ixCopy _ _ | ixUp _ _ _ _ | upStore _ _ _ | upDrop _ _ | upMove _ _ _
  | upDiscard _ _ _ | upExit _ _ _ _ _ _ | join _ _ _ _ _ _ _ => exact h

theorem inOrder_init (c : Cfg Id) (w : World Id) (main : List (Op Id)) : InOrder main (init c w main) :=
  fun k => ⟨[], by simp [init, inHand]⟩

theorem inOrder {c : Cfg Id} {w : World Id} {main : List (Op Id)} {s : State Id}
    (h : Reachable c w main s) : InOrder main s := by
  induction h with
  | refl => exact inOrder_init c w main
  | tail _ hstep ih => exact inOrder_step ih hstep

/-- The whole system forms only such packs, so that nothing is lost by allowing only them. -/
theorem reachable_allowed {c c' : Cfg Id} (hids : c'.ids = c.ids) (hlive : c'.live = c.live)
    (hcores : c'.cores = c.cores) (hstart : c'.start = c.start) {w : World Id} {main : List (Op Id)}
    (ha : ∀ cur, FormedBy main cur → c'.allowed cur)
    {s : State Id} (h : Reachable c w main s) : Reachable c' w main s := by
  obtain ⟨ids, live, cores, start, allowed⟩ := c
  obtain ⟨ids', live', cores', start', allowed'⟩ := c'
  simp only at hids hlive hcores hstart ha
  subst hids hlive hcores hstart
  have : Reachable ⟨ids', live', cores', start', allowed'⟩ w main s ∧ InOrder main s := by
    induction h with
    | refl => exact ⟨.refl, inOrder_init ⟨ids', live', cores', start', allowed'⟩ w main⟩
    | @tail s t h hstep ih =>
      refine ⟨ih.1.tail ?_, inOrder_step ih.2 hstep⟩
      cases hstep with
      | spawn h1 h2 => exact .spawn _ h1 h2
      | mainUp p bs rest h1 h2 h3 h4 => exact .mainUp _ p bs rest h1 h2 h3 h4
      | mainSend b cur rest h1 h2 h3 => exact .mainSend _ b cur rest h1 h2 h3
      | close h1 h2 => exact .close _ h1 h2
      | endPack k cur h1 h2 h3 h4 =>
        refine .endPack _ k cur h1 h2 h3 (ha cur ⟨h3, k, ?_⟩)
        obtain ⟨pre, hp⟩ := ih.2 k
        rw [h2] at hp
        exact ⟨pre, _, hp⟩
      | packerExit k cur h1 h2 h3 h4 => exact .packerExit _ k cur h1 h2 h3 h4
      | packerUp k id bs h1 h2 h3 => exact .packerUp _ k id bs h1 h2 h3
      | packerIdx k id bs x h1 h2 h3 h4 => exact .packerIdx _ k id bs x h1 h2 h3 h4
      | packerDup k id bs x h1 h2 h3 h4 => exact .packerDup _ k id bs x h1 h2 h3 h4
      | ixPersist x h1 h2 => exact .ixPersist _ x h1 h2
      | ixEmpty x h1 h2 h3 h4 h5 => exact .ixEmpty _ x h1 h2 h3 h4 h5
      | ixClosed x h1 h2 h3 h4 h5 => exact .ixClosed _ x h1 h2 h3 h4 h5
      | ixPersistLast x h1 => exact .ixPersistLast _ x h1
      | ixCopy x h1 => exact .ixCopy _ x h1
      | ixUp x h1 h2 h3 => exact .ixUp _ x h1 h2 h3
      | upStore i h1 h2 => exact .upStore _ i h1 h2
      | upDrop i h1 => exact .upDrop _ i h1
      | upMove i h1 h2 => exact .upMove _ i h1 h2
      | upDiscard i h1 h2 => exact .upDiscard _ i h1 h2
      | upExit h1 h2 h3 h4 h5 h6 => exact .upExit _ h1 h2 h3 h4 h5 h6
      | join h1 h2 h3 h4 h5 h6 h7 => exact .join _ h1 h2 h3 h4 h5 h6 h7
  exact this.1

theorem step_allowed {ids : Ids Id} {live : Bool} {cores : Nat} {start : Index Id}
    {A : Pack Id → Prop} {s t : State Id} (h : Step ⟨ids, live, cores, start, A⟩ s t) :
    Step ⟨ids, live, cores, start, fun _ => True⟩ s t := by
  cases h with
  | spawn h1 h2 => exact .spawn _ h1 h2
  | mainUp p bs rest h1 h2 h3 h4 => exact .mainUp _ p bs rest h1 h2 h3 h4
  | mainSend b cur rest h1 h2 h3 => exact .mainSend _ b cur rest h1 h2 h3
  | close h1 h2 => exact .close _ h1 h2
  | endPack k cur h1 h2 h3 h4 => exact .endPack _ k cur h1 h2 h3 trivial
  | packerExit k cur h1 h2 h3 h4 => exact .packerExit _ k cur h1 h2 h3 h4
  | packerUp k id bs h1 h2 h3 => exact .packerUp _ k id bs h1 h2 h3
  | packerIdx k id bs x h1 h2 h3 h4 => exact .packerIdx _ k id bs x h1 h2 h3 h4
  | packerDup k id bs x h1 h2 h3 h4 => exact .packerDup _ k id bs x h1 h2 h3 h4
  | ixPersist x h1 h2 => exact .ixPersist _ x h1 h2
  | ixEmpty x h1 h2 h3 h4 h5 => exact .ixEmpty _ x h1 h2 h3 h4 h5
  | ixClosed x h1 h2 h3 h4 h5 => exact .ixClosed _ x h1 h2 h3 h4 h5
  | ixPersistLast x h1 => exact .ixPersistLast _ x h1
  | ixCopy x h1 => exact .ixCopy _ x h1
  | ixUp x h1 h2 h3 => exact .ixUp _ x h1 h2 h3
  | upStore i h1 h2 => exact .upStore _ i h1 h2
  | upDrop i h1 => exact .upDrop _ i h1
  | upMove i h1 h2 => exact .upMove _ i h1 h2
  | upDiscard i h1 h2 => exact .upDiscard _ i h1 h2
  | upExit h1 h2 h3 h4 h5 h6 => exact .upExit _ h1 h2 h3 h4 h5 h6
  | join h1 h2 h3 h4 h5 h6 h7 => exact .join _ h1 h2 h3 h4 h5 h6 h7

theorem Acct.writes {c : Cfg Id} {main : List (Op Id)} {s : State Id} {news : List (Id × Pack Id)}
    (h : Acct c main s news) {x : Index Id} (hx : s.ix.idx = some x) : Writes c (sends main) x := by
  have hi : idxPacks s.ix = x.packs := by simp only [idxPacks, hx]
  refine ⟨h.sup x hx, hi ▸ h.sort, news, _, h.blobs, h.good, h.kinds, hi ▸ h.packs⟩

theorem wip_from {c : Cfg Id} {w : World Id} {main : List (Op Id)} (hr : RunOk c w main)
    {s : State Id} (h : Reachable c w main s) :
    ∀ x, s.world.cwd.wip = some x → w.cwd.wip = some x ∨ Writes c (sends main) x := by
  induction h with
  | refl => exact fun x hx => .inl hx
  | @tail s t h hstep ih =>
    have ha := acct hr.world hr.startSort hr.ne h
    intro x hx
    cases hstep with
    | ixPersist y hi _ =>
      simp only [Option.some.injEq] at hx
      subst hx
      rcases ha with hd | ⟨news, ha⟩
      · rw [hi] at hd; cases hd
      · exact .inr (ha.writes (by rw [hi]; rfl))
    | ixPersistLast y hi =>
      simp only [Option.some.injEq] at hx
      subst hx
      rcases ha with hd | ⟨news, ha⟩
      · rw [hi] at hd; cases hd
      · exact .inr (ha.writes (by rw [hi]; rfl))
    | upDrop i _ => exact ih x (by cases i <;> exact hx)
    | upMove i _ _ => exact ih x (by cases i <;> exact hx)
    | upDiscard i _ _ => exact ih x (by cases i <;> exact hx)
    | join _ _ _ _ _ _ _ => cases hx
    | spawn _ _ | mainUp _ _ _ _ _ _ _ | mainSend _ _ _ _ _ _ | close _ _ | endPack _ _ _ _ _ _
    | packerExit _ _ _ _ _ _ | packerUp _ _ _ _ _ _ | packerIdx _ _ _ _ _ _ _ _
    | packerDup _ _ _ _ _ _ _ _ | ixEmpty _ _ _ _ _ _ | ixClosed _ _ _ _ _ _
    | ixCopy _ _ | ixUp _ _ _ _ | upStore _ _ _ | upExit _ _ _ _ _ _ => exact ih x hx

end Backpak.Pipeline
