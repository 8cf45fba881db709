import Verif.Model.Pipeline
import Verif.Lemmas.BMap

/-! # Invariants of the pipeline -/

namespace Backpak.Pipeline

variable {Id : Type} [LinearOrder Id]

/-- The indexer's channel has closed. -/
def IndexerState.late : IndexerState Id → Bool
  | .persistLast _ | .copy _ | .sendUp _ | .exited _ => true
  | _ => false

/-- The index the indexer holds or held. -/
def IndexerState.idx : IndexerState Id → Option (Index Id)
  | .persist x | .recv x | .persistLast x | .copy x | .sendUp x => some x
  | .exited x => x
  | .dead => none

theorem reach_induct {c : Cfg Id} {w : World Id} {main : List (Op Id)}
    {P : State Id → Prop} (h0 : P (init c w main)) (hs : ∀ s t, P s → Step c s t → P t)
    {s : State Id} (h : Reachable c w main s) : P s := by
  induction h with
  | refl => exact h0
  | tail _ hstep ih => exact hs _ _ ih hstep

/-- How the threads' control states constrain each other. -/
structure Ctl (s : State Id) : Prop where
  closedMain : s.closed = true → s.main = []
  exitClosed : ∀ k, s.pk k = .exited → s.closed = true
  ixLate : s.ix.late = true → ∀ k, s.pk k = .exited
  upExit : s.up = .exited → ∃ x, s.ix = .exited x
  joinedUp : s.joined = true → s.up = .exited
  spawnLe : s.spawned ≤ 4
  joinedSpawn : s.joined = true → s.spawned = 4

theorem kind_cases {P : Kind → Prop} (h1 : P .chunk) (h2 : P .tree) (k : Kind) : P k := by
  cases k <;> assumption

theorem ctl_init (c : Cfg Id) (w : World Id) (main : List (Op Id)) :
    Ctl (init c w main) := by
  refine ⟨by simp [init], by simp [init], ?_, by simp [init], by simp [init], by simp [init],
    by simp [init]⟩
  simp only [init]
  split <;> simp [IndexerState.late]

theorem ctl_step {c : Cfg Id} {s t : State Id} (hs : Ctl s) (h : Step c s t) : Ctl t := by
  obtain ⟨h1, h2, h3, h4, h5, h6, h7⟩ := hs
  cases h with
  | spawn hlt _ => exact ⟨h1, h2, h3, h4, h5, by simp; omega, by intro hj; have := h7 hj; omega⟩
  | mainUp p bs rest hm hsp hu _ =>
    refine ⟨?_, h2, h3, by simp, ?_, h6, h7⟩
    · intro hc; simp [h1 hc] at hm
    · intro hj; simp [h5 hj] at hu
  | mainSend b cur rest hm hsp hp =>
    refine ⟨?_, ?_, ?_, h4, h5, h6, h7⟩
    · intro hc; simp [h1 hc] at hm
    · intro k hk
      simp only [Function.update_apply] at hk
      split at hk
      · simp at hk
      · exact h2 k hk
    · intro hl
      simp [h3 hl b.kind] at hp
  | close hm _ => exact ⟨fun _ => hm, fun _ _ => rfl, h3, h4, h5, h6, h7⟩
  | endPack k cur hsp hp hne _ =>
    refine ⟨h1, ?_, ?_, h4, h5, h6, h7⟩
    · intro k' hk
      simp only [Function.update_apply] at hk
      split at hk
      · simp at hk
      · exact h2 k' hk
    · intro hl
      simp [h3 hl k] at hp
  | packerExit k cur hsp hp hc _ =>
    refine ⟨h1, fun _ _ => hc, ?_, h4, h5, h6, h7⟩
    intro hl
    simp [h3 hl k] at hp
  | packerUp k id bs hp hsp hu =>
    refine ⟨h1, ?_, ?_, by simp, ?_, h6, h7⟩
    · intro k' hk
      simp only [Function.update_apply] at hk
      split at hk
      · simp at hk
      · exact h2 k' hk
    · intro hl
      simp [h3 hl k] at hp
    · intro hj; simp [h5 hj] at hu
  | packerIdx k id bs x hp hsp hi hn =>
    refine ⟨h1, ?_, ?_, ?_, h5, h6, h7⟩
    · intro k' hk
      simp only [Function.update_apply] at hk
      split at hk
      · simp at hk
      · exact h2 k' hk
    · intro hl
      simp only at hl
      split at hl <;> simp [IndexerState.late] at hl
    · intro hu
      obtain ⟨y, hy⟩ := h4 hu
      simp [hi] at hy
  | packerDup k id bs x hp hsp hi hn =>
    refine ⟨h1, ?_, by simp [IndexerState.late], ?_, h5, h6, h7⟩
    · intro k' hk
      simp only [Function.update_apply] at hk
      split at hk
      · simp at hk
      · exact h2 k' hk
    · intro hu
      obtain ⟨y, hy⟩ := h4 hu
      simp [hi] at hy
  | ixPersist x hi _ =>
    refine ⟨h1, h2, by simp [IndexerState.late], ?_, h5, h6, h7⟩
    intro hu
    obtain ⟨y, hy⟩ := h4 hu
    simp [hi] at hy
  | ixEmpty x hi _ hc ht _ =>
    exact ⟨h1, h2, fun _ => kind_cases hc ht, fun _ => ⟨_, rfl⟩, h5, h6, h7⟩
  | ixClosed x hi _ hc ht _ =>
    refine ⟨h1, h2, fun _ => kind_cases hc ht, ?_, h5, h6, h7⟩
    intro hu
    obtain ⟨y, hy⟩ := h4 hu
    simp [hi] at hy
  | ixPersistLast x hi =>
    refine ⟨h1, h2, fun _ => h3 (by rw [hi]; rfl), ?_, h5, h6, h7⟩
    intro hu
    obtain ⟨y, hy⟩ := h4 hu
    simp [hi] at hy
  | ixCopy x hi =>
    refine ⟨h1, h2, fun _ => h3 (by rw [hi]; rfl), ?_, h5, h6, h7⟩
    intro hu
    obtain ⟨y, hy⟩ := h4 hu
    simp [hi] at hy
  | ixUp x hi _ hu =>
    refine ⟨h1, h2, fun _ => h3 (by rw [hi]; rfl), by simp, ?_, h6, h7⟩
    intro hj; simp [h5 hj] at hu
  | upStore i hu _ => exact ⟨h1, h2, h3, by simp, by intro hj; simp [h5 hj] at hu, h6, h7⟩
  | upDrop i hu => exact ⟨h1, h2, h3, by simp, by intro hj; simp [h5 hj] at hu, h6, h7⟩
  | upMove i hu _ => exact ⟨h1, h2, h3, by simp, by intro hj; simp [h5 hj] at hu, h6, h7⟩
  | upDiscard i hu _ => exact ⟨h1, h2, h3, by simp, by intro hj; simp [h5 hj] at hu, h6, h7⟩
  | upExit hu _ _ _ _ hx => exact ⟨h1, h2, h3, fun _ => hx, fun _ => rfl, h6, h7⟩
  | join _ _ hsp _ _ hx hu => exact ⟨h1, h2, h3, fun _ => hx, fun _ => hu, h6, fun _ => hsp⟩

theorem ctl {c : Cfg Id} {w : World Id} {main : List (Op Id)} {s : State Id}
    (h : Reachable c w main s) : Ctl s :=
  reach_induct (ctl_init c w main) (fun _ _ => ctl_step) h

theorem upd_eq {f : Kind → PackerState Id} {k k' : Kind} {v a : PackerState Id}
    (h : Function.update f k v k' = a) : (k' = k ∧ v = a) ∨ (k' ≠ k ∧ f k' = a) := by
  rw [Function.update_apply] at h
  split at h
  · exact .inl ⟨by assumption, h⟩
  · exact .inr ⟨by assumption, h⟩

/-- The pack is in the repository or in the uploader's hands. -/
def Placed (r : Repo Id) (u : UploaderState Id) (p : Id) : Prop :=
  p ∈ BMap.keys r.packs ∨ ∃ bs, u = .busy (.pack p bs)

theorem keys_putItem {r : Repo Id} {i : Item Id} {p : Id} (h : p ∈ BMap.keys r.packs) :
    p ∈ BMap.keys (putItem r i).packs := by
  cases i with
  | pack id bs => exact BMap.keys_insert_mem.mpr (.inr h)
  | index id x => exact h

theorem placed_putItem {r : Repo Id} {i : Item Id} {p : Id} (h : Placed r (.busy i) p) :
    p ∈ BMap.keys (putItem r i).packs := by
  rcases h with h | ⟨bs, h⟩
  · exact keys_putItem h
  · simp only [UploaderState.busy.injEq] at h
    subst h
    exact BMap.keys_insert_mem.mpr (.inl rfl)

/-- On a live run: where the packs that have been (or are about to be) indexed are. -/
structure Data (w0 : World Id) (s : State Id) : Prop where
  keep : ∀ p ∈ BMap.keys w0.repo.packs, p ∈ BMap.keys s.world.repo.packs
  sendIdx : ∀ k p bs, s.pk k = .sendIdx p bs → Placed s.world.repo s.up p
  ix : ∀ x, s.ix.idx = some x → ∀ p ∈ BMap.keys x.packs, Placed s.world.repo s.up p ∨ Op.up p ∈ s.main
  upIdx : ∀ i x, s.up = .busy (.index i x) → ∀ p ∈ BMap.keys x.packs, p ∈ BMap.keys s.world.repo.packs
  indexes : ∀ i x, (i, x) ∈ s.world.repo.indexes → (i, x) ∈ w0.repo.indexes ∨
    ∀ p ∈ BMap.keys x.packs, p ∈ BMap.keys s.world.repo.packs

theorem data_init {c : Cfg Id} {w : World Id} {main : List (Op Id)}
    (h : ∀ p ∈ BMap.keys c.start.packs, p ∈ BMap.keys w.repo.packs ∨ Op.up p ∈ main) :
    Data w (init c w main) := by
  refine ⟨fun _ h => h, by simp [init], ?_, by simp [init], fun _ _ h => .inl h⟩
  intro x hx p hp
  have : x = c.start := by
    simp only [init] at hx
    split at hx <;> simpa [IndexerState.idx] using hx.symm
  subst this
  rcases h p hp with h | h
  · exact .inl (.inl h)
  · exact .inr h

theorem data_step {c : Cfg Id} {w0 : World Id} {s t : State Id} (hlive : c.live = true) (hc : Ctl s)
    (hs : Data w0 s) (h : Step c s t) : Data w0 t := by
  obtain ⟨h1, h2, h3, h4, h5⟩ := hs
  -- a pack placed while the uploader was idle is placed whatever it takes next
  have weak : s.up = .idle → ∀ u p, Placed s.world.repo s.up p → Placed s.world.repo u p := by
    intro hu u p hp
    rcases hp with hp | ⟨bs, hp⟩
    · exact .inl hp
    · simp [hu] at hp
  cases h with
  | spawn _ _ => exact ⟨h1, h2, h3, h4, h5⟩
  | mainUp p bs rest hm hsp hu hg =>
    refine ⟨h1, fun k q cs hk => weak hu _ q (h2 k q cs hk), ?_, by simp, h5⟩
    intro x hx q hq
    rcases h3 x hx q hq with h | h
    · exact .inl (weak hu _ q h)
    · rw [hm] at h
      rcases List.mem_cons.mp h with h | h
      · simp only [Op.up.injEq] at h
        subst h
        exact .inl (.inr ⟨bs, rfl⟩)
      · exact .inr h
  | mainSend b cur rest hm hsp hp =>
    refine ⟨h1, ?_, ?_, h4, h5⟩
    · intro k q cs hk
      rcases upd_eq hk with ⟨_, hk⟩ | ⟨_, hk⟩
      · simp at hk
      · exact h2 k q cs hk
    · intro x hx q hq
      rcases h3 x hx q hq with h | h
      · exact .inl h
      · rw [hm] at h
        rcases List.mem_cons.mp h with h | h
        · simp at h
        · exact .inr h
  | close _ _ => exact ⟨h1, h2, h3, h4, h5⟩
  | endPack k cur hsp hp hne ha =>
    refine ⟨h1, ?_, h3, h4, h5⟩
    intro k' q cs hk
    rcases upd_eq hk with ⟨_, hk⟩ | ⟨_, hk⟩
    · simp at hk
    · exact h2 k' q cs hk
  | packerExit k cur hsp hp _ _ =>
    refine ⟨h1, ?_, h3, h4, h5⟩
    intro k' q cs hk
    rcases upd_eq hk with ⟨_, hk⟩ | ⟨_, hk⟩
    · simp at hk
    · exact h2 k' q cs hk
  | packerUp k id bs hp hsp hu =>
    refine ⟨h1, ?_, ?_, by simp, h5⟩
    · intro k' q cs hk
      rcases upd_eq hk with ⟨_, hk⟩ | ⟨_, hk⟩
      · simp only [PackerState.sendIdx.injEq] at hk
        obtain ⟨rfl, rfl⟩ := hk
        exact .inr ⟨_, rfl⟩
      · exact weak hu _ q (h2 k' q cs hk)
    · intro x hx q hq
      rcases h3 x hx q hq with h | h
      · exact .inl (weak hu _ q h)
      · exact .inr h
  | packerIdx k id bs x hp hsp hi hn =>
    refine ⟨h1, ?_, ?_, h4, h5⟩
    · intro k' q cs hk
      rcases upd_eq hk with ⟨_, hk⟩ | ⟨_, hk⟩
      · simp at hk
      · exact h2 k' q cs hk
    · intro y hy q hq
      simp only [hlive, if_true, IndexerState.idx, Option.some.injEq] at hy
      subst hy
      rcases BMap.keys_insert_mem.mp hq with rfl | hq
      · exact .inl (h2 k q bs hp)
      · exact h3 x (by rw [hi]; rfl) q hq
  | packerDup k id bs x hp hsp hi hn =>
    refine ⟨h1, ?_, by simp [IndexerState.idx], h4, h5⟩
    intro k' q cs hk
    rcases upd_eq hk with ⟨_, hk⟩ | ⟨_, hk⟩
    · simp at hk
    · exact h2 k' q cs hk
  | ixPersist x hi _ => exact ⟨h1, h2, fun y hy => h3 y (by rw [hi]; exact hy), h4, h5⟩
  | ixEmpty x hi _ _ _ _ => exact ⟨h1, h2, by simp [IndexerState.idx], h4, h5⟩
  | ixClosed x hi _ _ _ _ =>
    refine ⟨h1, h2, fun y hy => h3 y ?_, h4, h5⟩
    rw [hi]
    simpa [hlive, IndexerState.idx] using hy
  | ixPersistLast x hi => exact ⟨h1, h2, fun y hy => h3 y (by rw [hi]; exact hy), h4, h5⟩
  | ixCopy x hi => exact ⟨h1, h2, fun y hy => h3 y (by rw [hi]; exact hy), h4, h5⟩
  | ixUp x hi _ hu =>
    have hall : ∀ p ∈ BMap.keys x.packs, p ∈ BMap.keys s.world.repo.packs := by
      intro p hp
      rcases h3 x (by rw [hi]; rfl) p hp with (h | ⟨bs, h⟩) | h
      · exact h
      · simp [hu] at h
      · have := hc.closedMain (hc.exitClosed .chunk (hc.ixLate (by rw [hi]; rfl) .chunk))
        simp [this] at h
    refine ⟨h1, fun k q cs hk => weak hu _ q (h2 k q cs hk), ?_, ?_, h5⟩
    · intro y hy q hq
      simp only [IndexerState.idx, Option.some.injEq] at hy
      subst hy
      exact .inl (.inl (hall q hq))
    · intro i y hy
      simp only [UploaderState.busy.injEq, Item.index.injEq] at hy
      obtain ⟨_, rfl⟩ := hy
      exact hall
  | upStore i hu _ =>
    refine ⟨fun p hp => keys_putItem (h1 p hp), ?_, ?_, by simp, ?_⟩
    · intro k q cs hk
      exact .inl (placed_putItem (hu ▸ h2 k q cs hk))
    · intro x hx q hq
      rcases h3 x hx q hq with h | h
      · exact .inl (.inl (placed_putItem (hu ▸ h)))
      · exact .inr h
    · intro j x hj
      cases i with
      | pack id bs =>
        rcases h5 j x hj with h | h
        · exact .inl h
        · exact .inr (fun p hp => keys_putItem (h p hp))
      | index id y =>
        rcases BMap.mem_insert_of hj with ⟨rfl, rfl⟩ | hj
        · exact .inr (h4 _ _ hu)
        · exact h5 j x hj
  | upDrop i hu =>
    refine ⟨h1, fun k q cs hk => ?_, ?_, by simp, h5⟩
    · rcases h2 k q cs hk with h | ⟨bs, h⟩
      · exact .inl h
      · simp [hu] at h
    · intro x hx q hq
      rcases h3 x hx q hq with (h | ⟨bs, h⟩) | h
      · exact .inl (.inl h)
      · simp [hu] at h
      · exact .inr h
  | upMove i hu _ =>
    refine ⟨fun p hp => keys_putItem (h1 p hp), ?_, ?_, by simp, ?_⟩
    · intro k q cs hk
      exact .inl (placed_putItem (hu ▸ h2 k q cs hk))
    · intro x hx q hq
      rcases h3 x hx q hq with h | h
      · exact .inl (.inl (placed_putItem (hu ▸ h)))
      · exact .inr h
    · intro j x hj
      cases i with
      | pack id bs =>
        rcases h5 j x hj with h | h
        · exact .inl h
        · exact .inr (fun p hp => keys_putItem (h p hp))
      | index id y =>
        rcases BMap.mem_insert_of hj with ⟨rfl, rfl⟩ | hj
        · exact .inr (h4 _ _ hu)
        · exact h5 j x hj
  | upDiscard i hu hd => simp [hlive] at hd
  | upExit hu _ _ _ _ _ =>
    refine ⟨h1, fun k q cs hk => weak hu _ q (h2 k q cs hk), ?_, by simp, h5⟩
    intro x hx q hq
    rcases h3 x hx q hq with h | h
    · exact .inl (weak hu _ q h)
    · exact .inr h
  | join _ _ _ _ _ _ _ => exact ⟨h1, h2, h3, h4, h5⟩

/-- Induction over reachable states with the control invariant at hand. -/
theorem reach_induct' {c : Cfg Id} {w : World Id} {main : List (Op Id)}
    {P : State Id → Prop} (h0 : P (init c w main)) (hs : ∀ s t, Ctl s → P s → Step c s t → P t)
    {s : State Id} (h : Reachable c w main s) : P s := by
  have : Ctl s ∧ P s :=
    reach_induct (P := fun s => Ctl s ∧ P s) ⟨ctl_init c w main, h0⟩
      (fun s t hp hstep => ⟨ctl_step hp.1 hstep, hs s t hp.1 hp.2 hstep⟩) h
  exact this.2

theorem data {c : Cfg Id} {w : World Id} {main : List (Op Id)} {s : State Id} (hlive : c.live = true)
    (h0 : ∀ p ∈ BMap.keys c.start.packs, p ∈ BMap.keys w.repo.packs ∨ Op.up p ∈ main)
    (h : Reachable c w main s) : Data w s :=
  reach_induct' (data_init h0) (fun _ _ hc hd => data_step hlive hc hd) h

/-- For building concrete runs step by step. -/
theorem run_step {c : Cfg Id} {P : State Id → Prop} {a b : State Id} (h : Step c a b)
    (h' : ∃ s, Relation.ReflTransGen (Step c) b s ∧ P s) :
    ∃ s, Relation.ReflTransGen (Step c) a s ∧ P s := by
  obtain ⟨s, h1, h2⟩ := h'
  exact ⟨s, .head h h1, h2⟩

end Backpak.Pipeline
