import Verif.Lemmas.Pipeline
import Mathlib.Data.List.Perm.Basic

/-! # Further invariants of the pipeline: names, contents, accounting -/

namespace Backpak.Pipeline

variable {Id : Type} [LinearOrder Id]

/-- A pack under its proper name. -/
def Good (c : Cfg Id) (p : Id) (bs : Pack Id) : Prop :=
  p = c.ids.packId (Pack.manifestOf bs) ∧ c.allowed bs

/-- Every pack anywhere is under its proper name. -/
structure Named (c : Cfg Id) (s : State Id) : Prop where
  cwd : ∀ p bs, (p, bs) ∈ s.world.cwd.packs → Good c p bs
  repo : ∀ p bs, (p, bs) ∈ s.world.repo.packs → Good c p bs
  up : ∀ p bs, s.up = .busy (.pack p bs) → Good c p bs
  pk : ∀ k p bs, s.pk k = .sendUp p bs ∨ s.pk k = .sendIdx p bs → Good c p bs
  rsort : BMap.Sorted s.world.repo.packs
  isort : BMap.Sorted s.world.repo.indexes

theorem named_step {c : Cfg Id} {s t : State Id} (hs : Named c s) (h : Step c s t) : Named c t := by
  obtain ⟨h1, h2, h3, h4, h5, h6⟩ := hs
  have pk_other : ∀ k v, (∀ p bs, v = .sendUp p bs ∨ v = .sendIdx p bs → Good c p bs) →
      ∀ k' p bs, Function.update s.pk k v k' = .sendUp p bs ∨
        Function.update s.pk k v k' = .sendIdx p bs → Good c p bs := by
    intro k v hv k' p bs hk
    rw [Function.update_apply] at hk
    split at hk
    · exact hv p bs hk
    · exact h4 k' p bs hk
  have dropGood : ∀ i p bs, (p, bs) ∈ (dropItem s.world.cwd i).packs → Good c p bs := by
    intro i p bs hm
    cases i with
    | pack id cs => exact h1 p bs (BMap.mem_erase_iff.mp hm).2
    | index id x => exact h1 p bs hm
  have putGood : ∀ i, s.up = .busy i → ∀ p bs, (p, bs) ∈ (putItem s.world.repo i).packs → Good c p bs := by
    intro i hu p bs hm
    cases i with
    | pack id cs =>
      rcases BMap.mem_insert_of hm with ⟨rfl, rfl⟩ | hm
      · exact h3 _ _ hu
      · exact h2 p bs hm
    | index id x => exact h2 p bs hm
  have putSort : ∀ i, BMap.Sorted (putItem s.world.repo i).packs ∧
      BMap.Sorted (putItem s.world.repo i).indexes := by
    intro i
    cases i with
    | pack id cs => exact ⟨BMap.sorted_insert h5 _ _, h6⟩
    | index id x => exact ⟨h5, BMap.sorted_insert h6 _ _⟩
  cases h with
  | spawn _ _ => exact ⟨h1, h2, h3, h4, h5, h6⟩
  | mainUp p bs rest hm hsp hu hg =>
    refine ⟨h1, h2, ?_, h4, h5, h6⟩
    intro q cs hq
    simp only [UploaderState.busy.injEq, Item.pack.injEq] at hq
    obtain ⟨rfl, rfl⟩ := hq
    exact h1 _ _ (BMap.mem_of_get? hg)
  | mainSend b cur rest hm hsp hp => exact ⟨h1, h2, h3, pk_other _ _ (by simp), h5, h6⟩
  | close _ _ => exact ⟨h1, h2, h3, h4, h5, h6⟩
  | endPack k cur hsp hp hne ha =>
    refine ⟨?_, h2, h3, pk_other _ _ ?_, h5, h6⟩
    · intro p bs hm
      rcases BMap.mem_insert_of hm with ⟨rfl, rfl⟩ | hm
      · exact ⟨rfl, ha⟩
      · exact h1 p bs hm
    · intro p bs hk
      simp only [PackerState.sendUp.injEq, reduceCtorEq, or_false] at hk
      obtain ⟨rfl, rfl⟩ := hk
      exact ⟨rfl, ha⟩
  | packerExit k cur hsp hp _ _ => exact ⟨h1, h2, h3, pk_other _ _ (by simp), h5, h6⟩
  | packerUp k id bs hp hsp hu =>
    have hg := h4 k id bs (.inl hp)
    refine ⟨h1, h2, ?_, pk_other _ _ ?_, h5, h6⟩
    · intro q cs hq
      simp only [UploaderState.busy.injEq, Item.pack.injEq] at hq
      obtain ⟨rfl, rfl⟩ := hq
      exact hg
    · intro p bs hk
      simp only [PackerState.sendIdx.injEq, reduceCtorEq, false_or] at hk
      obtain ⟨rfl, rfl⟩ := hk
      exact hg
  | packerIdx k id bs x hp hsp hi hn => exact ⟨h1, h2, h3, pk_other _ _ (by simp), h5, h6⟩
  | packerDup k id bs x hp hsp hi hn => exact ⟨h1, h2, h3, pk_other _ _ (by simp), h5, h6⟩
  | ixPersist x hi _ => exact ⟨h1, h2, h3, h4, h5, h6⟩
  | ixEmpty x hi _ _ _ _ => exact ⟨h1, h2, h3, h4, h5, h6⟩
  | ixClosed x hi _ _ _ _ => exact ⟨h1, h2, h3, h4, h5, h6⟩
  | ixPersistLast x hi => exact ⟨h1, h2, h3, h4, h5, h6⟩
  | ixCopy x hi => exact ⟨h1, h2, h3, h4, h5, h6⟩
  | ixUp x hi _ hu => exact ⟨h1, h2, by simp, h4, h5, h6⟩
  | upStore i hu _ => exact ⟨h1, putGood i hu, by simp, h4, (putSort i).1, (putSort i).2⟩
  | upDrop i hu => exact ⟨dropGood i, h2, by simp, h4, h5, h6⟩
  | upMove i hu _ => exact ⟨dropGood i, putGood i hu, by simp, h4, (putSort i).1, (putSort i).2⟩
  | upDiscard i hu _ => exact ⟨dropGood i, h2, by simp, h4, h5, h6⟩
  | upExit hu _ _ _ _ _ => exact ⟨h1, h2, by simp, h4, h5, h6⟩
  | join _ _ _ _ _ _ _ => exact ⟨h1, h2, h3, h4, h5, h6⟩

/-- A well-named starting point. -/
structure WorldOk (c : Cfg Id) (w : World Id) : Prop where
  cwd : ∀ p bs, (p, bs) ∈ w.cwd.packs → Good c p bs
  repo : ∀ p bs, (p, bs) ∈ w.repo.packs → Good c p bs
  rsort : BMap.Sorted w.repo.packs
  isort : BMap.Sorted w.repo.indexes

theorem named {c : Cfg Id} {w : World Id} {main : List (Op Id)} {s : State Id} (hw : WorldOk c w)
    (h : Reachable c w main s) : Named c s :=
  reach_induct ⟨hw.cwd, hw.repo, by simp [init], by simp [init], hw.rsort, hw.isort⟩
    (fun _ _ hd hstep => named_step hd hstep) h

/-! ### Existing packs keep their contents -/

theorem keep_step {c : Cfg Id} {w0 : World Id} {s t : State Id} (hn : Named c s)
    (hinj : ∀ a b, c.allowed a → c.allowed b →
      c.ids.packId (Pack.manifestOf a) = c.ids.packId (Pack.manifestOf b) → a = b)
    (hs : ∀ e ∈ w0.repo.packs, e ∈ s.world.repo.packs) (h : Step c s t) :
    ∀ e ∈ w0.repo.packs, e ∈ t.world.repo.packs := by
  have put : ∀ i, s.up = .busy i → ∀ e ∈ w0.repo.packs, e ∈ (putItem s.world.repo i).packs := by
    rintro i hu ⟨p, bs⟩ he
    have hm := hs _ he
    cases i with
    | pack id cs =>
      rw [putItem, BMap.mem_insert_iff hn.rsort]
      by_cases hp : p = id
      · subst hp
        obtain ⟨a1, a2⟩ := hn.repo _ _ hm
        obtain ⟨b1, b2⟩ := hn.up _ _ hu
        exact .inl ⟨rfl, hinj _ _ a2 b2 (a1.symm.trans b1)⟩
      · exact .inr ⟨hp, hm⟩
    | index id x => exact hm
  cases h with
  | upStore i hu _ => exact put i hu
  | upMove i hu _ => exact put i hu
  | spawn _ _ | mainUp _ _ _ _ _ _ _ | mainSend _ _ _ _ _ _ | close _ _ | endPack _ _ _ _ _ _
  | packerExit _ _ _ _ _ _ | packerUp _ _ _ _ _ _ | packerIdx _ _ _ _ _ _ _ _
  | packerDup _ _ _ _ _ _ _ _ | ixPersist _ _ _ | ixEmpty _ _ _ _ _ _ | ixClosed _ _ _ _ _ _
  | ixPersistLast _ _ | ixCopy _ _ | ixUp _ _ _ _ | upDrop _ _ | upDiscard _ _ _
  | upExit _ _ _ _ _ _ | join _ _ _ _ _ _ _ => exact hs

theorem keep {c : Cfg Id} {w : World Id} {main : List (Op Id)} {s : State Id} (hw : WorldOk c w)
    (hinj : ∀ a b, c.allowed a → c.allowed b →
      c.ids.packId (Pack.manifestOf a) = c.ids.packId (Pack.manifestOf b) → a = b)
    (h : Reachable c w main s) : ∀ e ∈ w.repo.packs, e ∈ s.world.repo.packs := by
  have : Named c s ∧ ∀ e ∈ w.repo.packs, e ∈ s.world.repo.packs := by
    refine reach_induct (P := fun s => Named c s ∧ ∀ e ∈ w.repo.packs, e ∈ s.world.repo.packs)
      ⟨named hw .refl, fun _ h => h⟩ ?_ h
    intro s t hp hstep
    exact ⟨named_step hp.1 hstep, keep_step hp.1 hinj hp.2 hstep⟩
  exact this.2

/-! ### The index file and the snapshots -/

/-- On a live run: what index files the repository has. -/
structure Filed (c : Cfg Id) (w0 : World Id) (s : State Id) : Prop where
  snaps : s.world.repo.snapshots = w0.repo.snapshots
  busy : ∀ i x, s.up = .busy (.index i x) →
    s.ix = .exited (some x) ∧ i = c.ids.indexId x ∧ s.world.repo.indexes = w0.repo.indexes
  notYet : (∀ x, s.ix ≠ .exited (some x)) → s.world.repo.indexes = w0.repo.indexes
  put : ∀ x, s.ix = .exited (some x) → (∀ i y, s.up ≠ .busy (.index i y)) →
    s.world.repo.indexes = BMap.insert (c.ids.indexId x) x w0.repo.indexes

theorem filed_step {c : Cfg Id} {w0 : World Id} {s t : State Id} (hc : Ctl s) (hlive : c.live = true)
    (hs : Filed c w0 s) (h : Step c s t) : Filed c w0 t := by
  obtain ⟨h1, h2, h3, h4⟩ := hs
  have fromIdle : ∀ u, s.up = .idle → (∀ i x, u ≠ .busy (.index i x)) →
      Filed c w0 { s with up := u } := by
    intro u hu hne
    refine ⟨h1, fun i x h => absurd h (hne i x), h3, fun x hx _ => h4 x hx (by simp [hu])⟩
  have store : ∀ i, s.up = .busy i →
      (putItem s.world.repo i).snapshots = w0.repo.snapshots ∧
      ((∀ x, s.ix ≠ .exited (some x)) → (putItem s.world.repo i).indexes = w0.repo.indexes) ∧
      (∀ x, s.ix = .exited (some x) →
        (putItem s.world.repo i).indexes = BMap.insert (c.ids.indexId x) x w0.repo.indexes) := by
    intro i hu
    cases i with
    | pack id bs => exact ⟨h1, h3, fun x hx => h4 x hx (by simp [hu])⟩
    | index id y =>
      obtain ⟨a1, a2, a3⟩ := h2 _ _ hu
      refine ⟨h1, fun h => absurd a1 (h y), ?_⟩
      intro x hx
      rw [a1] at hx
      simp only [IndexerState.exited.injEq, Option.some.injEq] at hx
      subst hx
      simp only [putItem, a3, a2]
  cases h with
  | spawn _ _ => exact ⟨h1, h2, h3, h4⟩
  | mainUp p bs rest hm hsp hu hg =>
    obtain ⟨a, b, d, e⟩ := fromIdle (.busy (.pack p bs)) hu (by simp)
    exact ⟨a, b, d, e⟩
  | mainSend b cur rest hm hsp hp => exact ⟨h1, h2, h3, h4⟩
  | close _ _ => exact ⟨h1, h2, h3, h4⟩
  | endPack k cur hsp hp hne ha => exact ⟨h1, h2, h3, h4⟩
  | packerExit k cur hsp hp _ _ => exact ⟨h1, h2, h3, h4⟩
  | packerUp k id bs hp hsp hu =>
    obtain ⟨a, b, d, e⟩ := fromIdle (.busy (.pack id bs)) hu (by simp)
    exact ⟨a, b, d, e⟩
  | packerIdx k id bs x hp hsp hi hn =>
    refine ⟨h1, ?_, fun _ => h3 (by simp [hi]), ?_⟩
    · intro i y hu
      have := (h2 i y hu).1
      simp [hi] at this
    · intro y hy
      simp [hlive] at hy
  | packerDup k id bs x hp hsp hi hn =>
    refine ⟨h1, ?_, fun _ => h3 (by simp [hi]), by simp⟩
    intro i y hu
    have := (h2 i y hu).1
    simp [hi] at this
  | ixPersist x hi _ =>
    refine ⟨h1, ?_, fun _ => h3 (by simp [hi]), by simp⟩
    intro i y hu
    have := (h2 i y hu).1
    simp [hi] at this
  | ixEmpty x hi _ _ _ _ =>
    refine ⟨h1, ?_, fun _ => h3 (by simp [hi]), by simp⟩
    intro i y hu
    have := (h2 i y hu).1
    simp [hi] at this
  | ixClosed x hi _ _ _ _ =>
    refine ⟨h1, ?_, fun _ => h3 (by simp [hi]), by simp [hlive]⟩
    intro i y hu
    have := (h2 i y hu).1
    simp [hi] at this
  | ixPersistLast x hi =>
    refine ⟨h1, ?_, fun _ => h3 (by simp [hi]), by simp⟩
    intro i y hu
    have := (h2 i y hu).1
    simp [hi] at this
  | ixCopy x hi =>
    refine ⟨h1, ?_, fun _ => h3 (by simp [hi]), by simp⟩
    intro i y hu
    have := (h2 i y hu).1
    simp [hi] at this
  | ixUp x hi _ hu =>
    have h0 := h3 (by simp [hi])
    refine ⟨h1, ?_, fun _ => h0, ?_⟩
    · intro i y he
      simp only [UploaderState.busy.injEq, Item.index.injEq] at he
      obtain ⟨rfl, rfl⟩ := he
      exact ⟨rfl, rfl, h0⟩
    · intro y _ hne
      exact absurd rfl (hne _ _)
  | upStore i hu _ =>
    obtain ⟨a, b, d⟩ := store i hu
    exact ⟨a, by simp, b, fun x hx _ => d x hx⟩
  | upDrop i hu => exact ⟨h1, by simp, h3, fun x hx _ => h4 x hx (by simp [hu])⟩
  | upMove i hu _ =>
    obtain ⟨a, b, d⟩ := store i hu
    exact ⟨a, by simp, b, fun x hx _ => d x hx⟩
  | upDiscard i hu hd => simp [hlive] at hd
  | upExit hu _ _ _ _ _ =>
    obtain ⟨a, b, d, e⟩ := fromIdle .exited hu (by simp)
    exact ⟨a, b, d, e⟩
  | join _ _ _ _ _ _ _ => exact ⟨h1, h2, h3, h4⟩

theorem filed {c : Cfg Id} {w : World Id} {main : List (Op Id)} {s : State Id} (hlive : c.live = true)
    (h : Reachable c w main s) : Filed c w s := by
  refine reach_induct' ⟨rfl, by simp [init], fun _ => rfl, ?_⟩
    (fun _ _ hc hd hstep => filed_step hc hlive hd hstep) h
  intro x hx
  simp only [init] at hx
  split at hx <;> simp at hx

/-! ### A dry run leaves the repository alone -/

theorem dry {c : Cfg Id} {w : World Id} {main : List (Op Id)} {s : State Id} (hdry : c.live = false)
    (h : Reachable c w main s) : s.world.repo = w.repo ∧ ∀ i, s.up ≠ .stored i := by
  refine reach_induct (P := fun s => s.world.repo = w.repo ∧ ∀ i, s.up ≠ .stored i)
    ⟨rfl, by simp [init]⟩ ?_ h
  rintro s t ⟨h1, h2⟩ hstep
  cases hstep <;> simp_all

/-! ### Accounting -/

/-- The blobs a packer holds. -/
def PackerState.hold : PackerState Id → List (Blob Id)
  | .recv cur => cur
  | .sendUp _ bs | .sendIdx _ bs => bs
  | .exited => []

/-- The blobs yet to be sent. -/
def sends (main : List (Op Id)) : List (Blob Id) :=
  main.filterMap (fun o => match o with | .send b => some b | .up _ => none)

/-- The packs of the index the indexer holds. -/
def idxPacks (i : IndexerState Id) : BMap Id (Manifest Id) :=
  match i.idx with
  | some x => x.packs
  | none => []

/-- Every blob of the command is in exactly one place: packed and indexed in `news`, in a
packer, or not yet sent. -/
structure Acct (c : Cfg Id) (main0 : List (Op Id)) (s : State Id) (news : List (Id × Pack Id)) : Prop where
  packs : (idxPacks s.ix).Perm (c.start.packs ++ news.map (fun e => (e.1, Pack.manifestOf e.2)))
  good : ∀ e ∈ news, Good c e.1 e.2
  blobs : (news.flatMap Prod.snd ++
    ((s.pk .chunk).hold ++ ((s.pk .tree).hold ++ sends s.main))).Perm (sends main0)
  sup : ∀ x, s.ix.idx = some x → x.supersedes = c.start.supersedes
  sort : BMap.Sorted (idxPacks s.ix)
  some_idx : s.ix.idx = none → c.start.supersedes = []
  hold : ∀ k, ∀ b ∈ (s.pk k).hold, b.kind = k
  kinds : ∀ e ∈ news, e.2 ≠ [] ∧ ∃ k, ∀ b ∈ e.2, b.kind = k
  ne : ∀ k p bs, s.pk k = .sendUp p bs ∨ s.pk k = .sendIdx p bs → bs ≠ []

theorem insert_perm {K V : Type} [LinearOrder K] {k : K} {v : V} {m : BMap K V} (h : k ∉ BMap.keys m) :
    (BMap.insert k v m).Perm ((k, v) :: m) := by
  induction m with
  | nil => exact .refl _
  | cons e m ih =>
    obtain ⟨k', v'⟩ := e
    simp only [BMap.keys, List.map_cons, List.mem_cons, not_or] at h
    rw [BMap.insert]
    split
    · exact .refl _
    · rw [if_neg h.1]
      exact ((ih h.2).cons _).trans (.swap _ _ _)

theorem content_zero {cur : List (Blob Id)} (h : (Pack.contentOf cur).length = 0)
    (hne : ∀ b ∈ cur, b.data ≠ []) : cur = [] := by
  cases cur with
  | nil => rfl
  | cons b cur =>
    simp [Pack.contentOf] at h
    exact absurd h.1 (hne b (by simp))

/-- One step: what was packed and indexed still is, and a pack that a packer has sent to the uploader is still
to be indexed or now is. -/
theorem acct_next {c : Cfg Id} {main0 : List (Op Id)} {s t : State Id} (hn : Named c s)
    (hmain : ∀ b ∈ sends main0, b.data ≠ []) {news : List (Id × Pack Id)}
    (hs : Acct c main0 s news) (h : Step c s t) :
    (∃ k id bs x, s.pk k = .sendIdx id bs ∧ s.ix = .recv x ∧ id ∈ BMap.keys x.packs ∧ t.ix = .dead) ∨
    ∃ news', (∀ e ∈ news, e ∈ news') ∧
      (∀ k q bs, s.pk k = .sendIdx q bs → t.pk k = .sendIdx q bs ∨ (q, bs) ∈ news') ∧ Acct c main0 t news' := by
  obtain ⟨h1, h2, h3, h4, h5, h6, h7, h8, h9⟩ := hs
  have sent : ∀ k v, (∀ q bs, s.pk k ≠ .sendIdx q bs) → ∀ k' q bs, s.pk k' = .sendIdx q bs →
      Function.update s.pk k v k' = .sendIdx q bs ∨ (q, bs) ∈ news := by
    intro k v hk k' q bs h
    rw [Function.update_apply]
    split
    · rename_i he; rw [he] at h; exact absurd h (hk q bs)
    · exact .inl h
  have upd7 : ∀ k v, (∀ b ∈ v.hold, b.kind = k) →
      ∀ k', ∀ b ∈ (Function.update s.pk k v k').hold, b.kind = k' := by
    intro k v hv k' b hb
    rw [Function.update_apply] at hb
    split at hb
    · rename_i he; rw [he]; exact hv b hb
    · exact h7 k' b hb
  have upd9 : ∀ k v, (∀ p bs, v = .sendUp p bs ∨ v = .sendIdx p bs → bs ≠ []) →
      ∀ k' p bs, Function.update s.pk k v k' = .sendUp p bs ∨
        Function.update s.pk k v k' = .sendIdx p bs → bs ≠ [] := by
    intro k v hv k' p bs hk
    rw [Function.update_apply] at hk
    split at hk
    · exact hv p bs hk
    · exact h9 k' p bs hk
  -- replacing a packer's state by one holding the same blobs
  have same : ∀ k v, v.hold = (s.pk k).hold →
      (news.flatMap Prod.snd ++ ((Function.update s.pk k v .chunk).hold ++
        ((Function.update s.pk k v .tree).hold ++ sends s.main))).Perm (sends main0) := by
    intro k v hv
    have : ∀ k', (Function.update s.pk k v k').hold = (s.pk k').hold := by
      intro k'
      rw [Function.update_apply]
      split
      · rename_i he; rw [he, hv]
      · rfl
    rw [this, this]
    exact h3
  cases h with
  | spawn _ _ => exact .inr ⟨news, fun _ h => h, fun _ _ _ h => .inl h, h1, h2, h3, h4, h5, h6, h7, h8, h9⟩
  | mainUp p bs rest hm hsp hu hg =>
    refine .inr ⟨news, fun _ h => h, fun _ _ _ h => .inl h, h1, h2, ?_, h4, h5, h6, h7, h8, h9⟩
    rw [hm] at h3
    simpa [sends] using h3
  | mainSend b cur rest hm hsp hp =>
    refine .inr ⟨news, fun _ h => h, sent _ _ (by simp [hp]), h1, h2, ?_, h4, h5, h6, upd7 _ _ ?_, h8, upd9 _ _ (by simp)⟩
    rotate_left
    · intro b' hb'
      rcases List.mem_append.mp hb' with hb' | hb'
      · exact h7 b.kind b' (by rw [hp]; exact hb')
      · simp only [List.mem_singleton] at hb'; rw [hb']
    rw [hm] at h3
    refine List.Perm.trans ?_ h3
    refine List.Perm.append_left _ ?_
    cases hk : b.kind <;> rw [hk] at hp <;>
      simp [Function.update_apply, hp, PackerState.hold, sends]
    exact List.Perm.append_left _ List.perm_middle.symm
  | close _ _ => exact .inr ⟨news, fun _ h => h, fun _ _ _ h => .inl h, h1, h2, h3, h4, h5, h6, h7, h8, h9⟩
  | endPack k cur hsp hp hne ha =>
    refine .inr ⟨news, fun _ h => h, sent _ _ (by simp [hp]), h1, h2, same k _ (by rw [hp]; rfl), h4, h5, h6,
      upd7 _ _ (fun b hb => h7 k b (by rw [hp]; exact hb)), h8, upd9 _ _ ?_⟩
    intro p bs hk
    simp only [PackerState.sendUp.injEq, reduceCtorEq, or_false] at hk
    rw [← hk.2]
    exact hne
  | packerExit k cur hsp hp _ hz =>
    refine .inr ⟨news, fun _ h => h, sent _ _ (by simp [hp]), h1, h2, same k _ ?_, h4, h5, h6, upd7 _ _ (by simp [PackerState.hold]), h8,
      upd9 _ _ (by simp)⟩
    rw [hp]
    refine (content_zero hz ?_).symm
    intro b hb
    refine hmain b (h3.subset ?_)
    cases k <;> simp [hp, PackerState.hold, hb]
  | packerUp k id bs hp hsp hu =>
    refine .inr ⟨news, fun _ h => h, sent _ _ (by simp [hp]), h1, h2, same k _ (by rw [hp]; rfl), h4, h5, h6,
      upd7 _ _ (fun b hb => h7 k b (by rw [hp]; exact hb)), h8, upd9 _ _ ?_⟩
    intro p cs hk
    simp only [PackerState.sendIdx.injEq, reduceCtorEq, false_or] at hk
    rw [← hk.2]
    exact h9 k _ _ (.inl hp)
  | packerIdx k id bs x hp hsp hi hnk =>
    have hx : idxPacks s.ix = x.packs := by rw [hi]; rfl
    rw [hx] at h1 h5
    have hp2 : idxPacks (if c.live then IndexerState.persist (addPack x id bs)
        else .recv (addPack x id bs)) = BMap.insert id (Pack.manifestOf bs) x.packs := by
      split <;> rfl
    refine .inr ⟨news ++ [(id, bs)], fun _ h => List.mem_append_left _ h, ?_, ?_, ?_, ?_, ?_, ?_, ?_, upd7 _ _ (by simp [PackerState.hold]), ?_,
      upd9 _ _ (by simp)⟩
    · intro k' q cs hq
      dsimp only
      rw [Function.update_apply]
      split
      · rename_i he
        rw [he, hp] at hq
        cases hq
        exact .inr (List.mem_append_right _ (List.mem_singleton.mpr rfl))
      · exact .inl hq
    · simp only [hp2]
      refine (insert_perm hnk).trans ?_
      refine (h1.cons _).trans ?_
      rw [List.map_append, ← List.append_assoc]
      exact (List.perm_append_singleton _ _).symm
    · intro e he
      rcases List.mem_append.mp he with he | he
      · exact h2 e he
      · simp only [List.mem_singleton] at he
        subst he
        exact hn.pk k id bs (.inr hp)
    · refine List.Perm.trans ?_ h3
      rw [List.flatMap_append, List.append_assoc]
      refine List.Perm.append_left _ ?_
      cases k <;> simp [Function.update_apply, hp, PackerState.hold]
      rw [← List.append_assoc, ← List.append_assoc]
      exact List.Perm.append_right _ List.perm_append_comm
    · intro y hy
      have : y = addPack x id bs := by
        simp only at hy
        split at hy <;> simpa [IndexerState.idx] using hy.symm
      subst this
      exact h4 x (by rw [hi]; rfl)
    · simp only [hp2]
      exact BMap.sorted_insert h5 _ _
    · intro hy
      simp only at hy
      split at hy <;> simp [IndexerState.idx] at hy
    · intro e he
      rcases List.mem_append.mp he with he | he
      · exact h8 e he
      · simp only [List.mem_singleton] at he
        subst he
        exact ⟨h9 k id bs (.inr hp), k, fun b hb => h7 k b (by rw [hp]; exact hb)⟩
  | packerDup k id bs x hp hsp hi hnk => exact .inl ⟨k, id, bs, x, hp, hi, hnk, rfl⟩
  | ixPersist x hi _ =>
    rw [hi] at h1 h4 h5 h6
    exact .inr ⟨news, fun _ h => h, fun _ _ _ h => .inl h, h1, h2, h3, h4, h5, h6, h7, h8, h9⟩
  | ixEmpty x hi _ _ _ he =>
    rw [hi] at h1 h4 h5 h6
    simp only [Index.isEmpty, Bool.and_eq_true, List.isEmpty_iff] at he
    have hx : idxPacks (IndexerState.recv x) = [] := he.2
    have hsup := h4 x rfl
    rw [he.1] at hsup
    refine .inr ⟨news, fun _ h => h, fun _ _ _ h => .inl h, ?_, h2, h3, by simp [IndexerState.idx], ?_, fun _ => hsup.symm,
      h7, h8, h9⟩
    · rw [hx] at h1; exact h1
    · simp [idxPacks, IndexerState.idx]
  | ixClosed x hi _ _ _ _ =>
    rw [hi] at h1 h4 h5 h6
    have : ∀ i : IndexerState Id, i = (if c.live then .copy x else .persistLast x) →
        i.idx = some x ∧ idxPacks i = x.packs := by
      intro i hi
      split at hi <;> subst hi <;> exact ⟨rfl, rfl⟩
    obtain ⟨a, b⟩ := this _ rfl
    refine .inr ⟨news, fun _ h => h, fun _ _ _ h => .inl h, by rw [b]; exact h1, h2, h3, ?_, by rw [b]; exact h5, by rw [a]; simp, h7, h8, h9⟩
    intro y hy
    rw [a] at hy
    exact h4 y hy
  | ixPersistLast x hi =>
    rw [hi] at h1 h4 h5 h6
    exact .inr ⟨news, fun _ h => h, fun _ _ _ h => .inl h, h1, h2, h3, h4, h5, h6, h7, h8, h9⟩
  | ixCopy x hi =>
    rw [hi] at h1 h4 h5 h6
    exact .inr ⟨news, fun _ h => h, fun _ _ _ h => .inl h, h1, h2, h3, h4, h5, h6, h7, h8, h9⟩
  | ixUp x hi _ hu =>
    rw [hi] at h1 h4 h5 h6
    exact .inr ⟨news, fun _ h => h, fun _ _ _ h => .inl h, h1, h2, h3, h4, h5, h6, h7, h8, h9⟩
  | upStore i hu _ => exact .inr ⟨news, fun _ h => h, fun _ _ _ h => .inl h, h1, h2, h3, h4, h5, h6, h7, h8, h9⟩
  | upDrop i hu => exact .inr ⟨news, fun _ h => h, fun _ _ _ h => .inl h, h1, h2, h3, h4, h5, h6, h7, h8, h9⟩
  | upMove i hu _ => exact .inr ⟨news, fun _ h => h, fun _ _ _ h => .inl h, h1, h2, h3, h4, h5, h6, h7, h8, h9⟩
  | upDiscard i hu _ => exact .inr ⟨news, fun _ h => h, fun _ _ _ h => .inl h, h1, h2, h3, h4, h5, h6, h7, h8, h9⟩
  | upExit hu _ _ _ _ _ => exact .inr ⟨news, fun _ h => h, fun _ _ _ h => .inl h, h1, h2, h3, h4, h5, h6, h7, h8, h9⟩
  | join _ _ _ _ _ _ _ => exact .inr ⟨news, fun _ h => h, fun _ _ _ h => .inl h, h1, h2, h3, h4, h5, h6, h7, h8, h9⟩

theorem acct_step {c : Cfg Id} {main0 : List (Op Id)} {s t : State Id} (hn : Named c s)
    (hmain : ∀ b ∈ sends main0, b.data ≠ [])
    (hs : s.ix = .dead ∨ ∃ news, Acct c main0 s news) (h : Step c s t) :
    t.ix = .dead ∨ ∃ news, Acct c main0 t news := by
  rcases hs with hdead | ⟨news, ha⟩
  · left
    cases h <;> simp_all
  · rcases acct_next hn hmain ha h with ⟨_, _, _, _, _, _, _, h1⟩ | ⟨news', _, _, h1⟩
    · exact .inl h1
    · exact .inr ⟨news', h1⟩

theorem acct {c : Cfg Id} {w : World Id} {main : List (Op Id)} {s : State Id} (hw : WorldOk c w)
    (hstart : BMap.Sorted c.start.packs) (hmain : ∀ b ∈ sends main, b.data ≠ [])
    (h : Reachable c w main s) : s.ix = .dead ∨ ∃ news, Acct c main s news := by
  have : Named c s ∧ (s.ix = .dead ∨ ∃ news, Acct c main s news) := by
    refine reach_induct (P := fun s => Named c s ∧ (s.ix = .dead ∨ ∃ news, Acct c main s news))
      ⟨named hw .refl, .inr ⟨[], ?_⟩⟩ ?_ h
    · have : ∀ i : IndexerState Id,
          i = (if c.live ∧ c.start.isEmpty = false then .persist c.start else .recv c.start) →
          i.idx = some c.start ∧ idxPacks i = c.start.packs := by
        intro i hi
        split at hi <;> subst hi <;> exact ⟨rfl, rfl⟩
      obtain ⟨a, b⟩ := this _ rfl
      refine ⟨?_, by simp, by simp [init, PackerState.hold], ?_, ?_, ?_, by simp [init, PackerState.hold],
        by simp, by simp [init]⟩
      · simp only [init, b, List.map_nil, List.append_nil]; exact .refl _
      · intro x hx
        simp only [init, a, Option.some.injEq] at hx
        rw [hx]
      · simp only [init, b]; exact hstart
      · simp only [init, a]; simp
    · intro s t hp hstep
      exact ⟨named_step hp.1 hstep, acct_step hp.1 hmain hp.2 hstep⟩
  exact this.2

/-! ### Packs listed in the work-in-progress file -/

/-- The pack is in the working directory or the repository. -/
def Kept (w : World Id) (p : Id) : Prop := p ∈ BMap.keys w.cwd.packs ∨ p ∈ BMap.keys w.repo.packs

/-- On a live run: where the packs listed in the work-in-progress file are. -/
structure Wip (s : State Id) : Prop where
  wip : ∀ x, s.world.cwd.wip = some x → ∀ p ∈ BMap.keys x.packs, Kept s.world p
  ix : ∀ x, s.ix.idx = some x → ∀ p ∈ BMap.keys x.packs, Kept s.world p
  pk : ∀ k p bs, s.pk k = .sendUp p bs ∨ s.pk k = .sendIdx p bs → Kept s.world p
  stored : ∀ p bs, s.up = .stored (.pack p bs) → p ∈ BMap.keys s.world.repo.packs

theorem kept_put {w : World Id} {i : Item Id} {p : Id} (h : Kept w p) :
    Kept ⟨putItem w.repo i, w.cwd⟩ p := by
  rcases h with h | h
  · exact .inl h
  · exact .inr (keys_putItem h)

theorem kept_drop {w : World Id} {i : Item Id} {p : Id} (h : Kept w p)
    (hi : ∀ q bs, i = .pack q bs → q ∈ BMap.keys w.repo.packs) :
    Kept ⟨w.repo, dropItem w.cwd i⟩ p := by
  rcases h with h | h
  · cases i with
    | pack q bs =>
      by_cases hq : p = q
      · subst hq; exact .inr (hi p bs rfl)
      · exact .inl (BMap.keys_erase_mem.mpr ⟨hq, h⟩)
    | index j x => exact .inl h
  · exact .inr h

theorem wip_step {c : Cfg Id} {s t : State Id} (hlive : c.live = true)
    (hs : Wip s) (h : Step c s t) : Wip t := by
  obtain ⟨h1, h2, h3, h4⟩ := hs
  have pk_other : ∀ (w' : World Id) k v, (∀ p, Kept s.world p → Kept w' p) →
      (∀ p bs, v = .sendUp p bs ∨ v = .sendIdx p bs → Kept w' p) →
      ∀ k' p bs, Function.update s.pk k v k' = .sendUp p bs ∨
        Function.update s.pk k v k' = .sendIdx p bs → Kept w' p := by
    intro w' k v hw hv k' p bs hk
    rw [Function.update_apply] at hk
    split at hk
    · exact hv p bs hk
    · exact hw p (h3 k' p bs hk)
  cases h with
  | spawn _ _ => exact ⟨h1, h2, h3, h4⟩
  | mainUp p bs rest hm hsp hu hg => exact ⟨h1, h2, h3, by simp⟩
  | mainSend b cur rest hm hsp hp => exact ⟨h1, h2, pk_other _ _ _ (fun _ h => h) (by simp), h4⟩
  | close _ _ => exact ⟨h1, h2, h3, h4⟩
  | endPack k cur hsp hp hne ha =>
    have mono : ∀ p, Kept s.world p → Kept { s.world with cwd := { s.world.cwd with
        packs := BMap.insert (c.ids.packId (Pack.manifestOf cur)) cur s.world.cwd.packs } } p := by
      rintro p (h | h)
      · exact .inl (BMap.keys_insert_mem.mpr (.inr h))
      · exact .inr h
    refine ⟨fun x hx p hp => mono p (h1 x hx p hp), fun x hx p hp => mono p (h2 x hx p hp),
      pk_other _ _ _ mono ?_, h4⟩
    intro p bs hk
    simp only [PackerState.sendUp.injEq, reduceCtorEq, or_false] at hk
    obtain ⟨rfl, rfl⟩ := hk
    exact .inl (BMap.keys_insert_mem.mpr (.inl rfl))
  | packerExit k cur hsp hp _ _ => exact ⟨h1, h2, pk_other _ _ _ (fun _ h => h) (by simp), h4⟩
  | packerUp k id bs hp hsp hu =>
    refine ⟨h1, h2, pk_other _ _ _ (fun _ h => h) ?_, by simp⟩
    intro p cs hk
    simp only [PackerState.sendIdx.injEq, reduceCtorEq, false_or] at hk
    obtain ⟨rfl, rfl⟩ := hk
    exact h3 k _ _ (.inl hp)
  | packerIdx k id bs x hp hsp hi hn =>
    refine ⟨h1, ?_, pk_other _ _ _ (fun _ h => h) (by simp), h4⟩
    intro y hy q hq
    simp only [hlive, if_true, IndexerState.idx, Option.some.injEq] at hy
    subst hy
    rcases BMap.keys_insert_mem.mp hq with rfl | hq
    · exact h3 k _ bs (.inr hp)
    · exact h2 x (by rw [hi]; rfl) q hq
  | packerDup k id bs x hp hsp hi hn =>
    exact ⟨h1, by simp [IndexerState.idx], pk_other _ _ _ (fun _ h => h) (by simp), h4⟩
  | ixPersist x hi _ =>
    have h2' := h2 x (by rw [hi]; rfl)
    refine ⟨?_, ?_, h3, h4⟩
    · intro y hy
      simp only [Option.some.injEq] at hy
      subst hy
      exact h2'
    · intro y hy
      simp only [IndexerState.idx, Option.some.injEq] at hy
      subst hy
      exact h2'
  | ixEmpty x hi _ _ _ _ => exact ⟨h1, by simp [IndexerState.idx], h3, h4⟩
  | ixClosed x hi _ _ _ _ =>
    refine ⟨h1, fun y hy => h2 y ?_, h3, h4⟩
    rw [hi]
    simpa [hlive, IndexerState.idx] using hy
  | ixPersistLast x hi =>
    have h2' := h2 x (by rw [hi]; rfl)
    refine ⟨?_, ?_, h3, h4⟩
    · intro y hy
      simp only [Option.some.injEq] at hy
      subst hy
      exact h2'
    · intro y hy
      simp only [IndexerState.idx, Option.some.injEq] at hy
      subst hy
      exact h2'
  | ixCopy x hi => exact ⟨h1, fun y hy => h2 y (by rw [hi]; exact hy), h3, h4⟩
  | ixUp x hi _ hu => exact ⟨h1, fun y hy => h2 y (by rw [hi]; exact hy), h3, by simp⟩
  | upStore i hu _ =>
    refine ⟨fun x hx p hp => kept_put (h1 x hx p hp), fun x hx p hp => kept_put (h2 x hx p hp),
      fun k p bs hk => kept_put (h3 k p bs hk), ?_⟩
    intro p bs he
    simp only [UploaderState.stored.injEq] at he
    subst he
    exact BMap.keys_insert_mem.mpr (.inl rfl)
  | upDrop i hu =>
    have hi : ∀ q bs, i = .pack q bs → q ∈ BMap.keys s.world.repo.packs := by
      rintro q bs rfl
      exact h4 q bs hu
    exact ⟨fun x hx p hp => kept_drop (h1 x (by cases i <;> exact hx) p hp) hi,
      fun x hx p hp => kept_drop (h2 x hx p hp) hi,
      fun k p bs hk => kept_drop (h3 k p bs hk) hi, by simp⟩
  | upMove i hu _ =>
    have hi : ∀ q bs, i = .pack q bs → q ∈ BMap.keys (putItem s.world.repo i).packs := by
      rintro q bs rfl
      exact BMap.keys_insert_mem.mpr (.inl rfl)
    exact ⟨fun x hx p hp => kept_drop (kept_put (h1 x (by cases i <;> exact hx) p hp)) hi,
      fun x hx p hp => kept_drop (kept_put (h2 x hx p hp)) hi,
      fun k p bs hk => kept_drop (kept_put (h3 k p bs hk)) hi, by simp⟩
  | upDiscard i hu hd => simp [hlive] at hd
  | upExit hu _ _ _ _ _ => exact ⟨h1, h2, h3, by simp⟩
  | join _ _ _ _ _ _ _ => exact ⟨by simp, h2, h3, h4⟩

theorem wip {c : Cfg Id} {w : World Id} {main : List (Op Id)} {s : State Id} (hlive : c.live = true)
    (hw : ∀ x, w.cwd.wip = some x → ∀ p ∈ BMap.keys x.packs, Kept w p)
    (hst : ∀ p ∈ BMap.keys c.start.packs, Kept w p)
    (h : Reachable c w main s) : Wip s := by
  refine reach_induct ⟨hw, ?_, by simp [init], by simp [init]⟩ (fun _ _ => wip_step hlive) h
  intro x hx
  simp only [init] at hx
  have : x = c.start := by split at hx <;> simpa [IndexerState.idx] using hx.symm
  subst this
  exact hst

end Backpak.Pipeline
