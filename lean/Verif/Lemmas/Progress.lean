import Verif.Lemmas.Pipeline2

/-! # The pipeline's progress and termination -/

set_option linter.unusedSimpArgs false

namespace Backpak.Pipeline

variable {Id : Type} [LinearOrder Id]

/-! ### Termination -/

def PackerState.cost : PackerState Id → Nat
  | .recv cur => 10 * cur.length + 1
  | .sendUp _ _ => 10
  | .sendIdx _ _ => 5
  | .exited => 0

def IndexerState.cost : IndexerState Id → Nat
  | .persist _ => 7
  | .recv _ => 6
  | .persistLast _ => 5
  | .copy _ => 4
  | .sendUp _ => 3
  | .exited _ => 0
  | .dead => 0

def UploaderState.cost : UploaderState Id → Nat
  | .busy _ => 3
  | .stored _ => 2
  | .idle => 1
  | .exited => 0

/-- What every step brings down. -/
def State.cost (s : State Id) : Nat :=
  12 * s.main.length + (if s.closed then 0 else 1) + (if s.joined then 0 else 1) + (4 - s.spawned) +
  (s.pk .chunk).cost + (s.pk .tree).cost + s.ix.cost + s.up.cost

@[simp] theorem cost_recv (cur : List (Blob Id)) :
    (PackerState.recv cur).cost = 10 * cur.length + 1 := rfl
@[simp] theorem cost_sendUp (i : Id) (bs : Pack Id) : (PackerState.sendUp i bs).cost = 10 := rfl
@[simp] theorem cost_sendIdx (i : Id) (bs : Pack Id) : (PackerState.sendIdx i bs).cost = 5 := rfl
@[simp] theorem cost_exited : (PackerState.exited : PackerState Id).cost = 0 := rfl

theorem cost_upd {f : Kind → PackerState Id} {k : Kind} {a v : PackerState Id} (h : f k = a) :
    (Function.update f k v .chunk).cost + (Function.update f k v .tree).cost + a.cost =
      (f .chunk).cost + (f .tree).cost + v.cost := by
  subst h
  cases k <;> simp [Function.update_apply] <;> omega

theorem cost_step {c : Cfg Id} {s t : State Id} (h : Step c s t) : t.cost < s.cost := by
  cases h with
  | spawn h _ => simp only [State.cost]; omega
  | mainUp p bs rest hm hsp hu hg =>
    simp only [State.cost, hm, hu, UploaderState.cost, List.length_cons]; omega
  | mainSend b cur rest hm hsp hp =>
    have hcu := cost_upd hp (v := .recv (cur ++ [b]))
    simp only [State.cost, hm, List.length_cons]
    simp only [cost_recv, cost_sendUp, cost_sendIdx, cost_exited, List.length_append,
      List.length_singleton, List.length_nil] at hcu
    omega
  | close hm hc => simp [State.cost, hc]
  | endPack k cur hsp hp hne ha =>
    have hcu := cost_upd hp (v := .sendUp (c.ids.packId (Pack.manifestOf cur)) cur)
    have hl := List.length_pos_iff.mpr hne
    simp only [State.cost]
    simp only [cost_recv, cost_sendUp, cost_sendIdx, cost_exited, List.length_append,
      List.length_singleton, List.length_nil] at hcu
    omega
  | packerExit k cur hsp hp _ hz =>
    have hcu := cost_upd hp (v := .exited)
    simp only [State.cost]
    simp only [cost_recv, cost_sendUp, cost_sendIdx, cost_exited, List.length_append,
      List.length_singleton, List.length_nil] at hcu
    omega
  | packerUp k id bs hp hsp hu =>
    have hcu := cost_upd hp (v := .sendIdx id bs)
    simp only [State.cost, hu, UploaderState.cost]
    simp only [cost_recv, cost_sendUp, cost_sendIdx, cost_exited, List.length_append,
      List.length_singleton, List.length_nil] at hcu
    omega
  | packerIdx k id bs x hp hsp hi hn =>
    have hcu := cost_upd hp (v := .recv [])
    simp only [State.cost, hi]
    simp only [cost_recv, cost_sendUp, cost_sendIdx, cost_exited, List.length_append,
      List.length_singleton, List.length_nil] at hcu
    have hc : (if c.live then IndexerState.persist (addPack x id bs)
        else .recv (addPack x id bs)).cost ≤ 7 := by split <;> simp [IndexerState.cost]
    have : (IndexerState.recv x).cost = 6 := rfl
    omega
  | packerDup k id bs x hp hsp hi hn =>
    have hcu := cost_upd hp (v := .recv [])
    simp only [State.cost, hi, IndexerState.cost]
    simp only [cost_recv, cost_sendUp, cost_sendIdx, cost_exited, List.length_append,
      List.length_singleton, List.length_nil] at hcu
    omega
  | ixPersist x hi _ => simp only [State.cost, hi, IndexerState.cost]; omega
  | ixEmpty x hi _ _ _ _ => simp only [State.cost, hi, IndexerState.cost]; omega
  | ixClosed x hi _ _ _ _ =>
    have hc : (if c.live then IndexerState.copy x else .persistLast x).cost ≤ 5 := by
      split <;> simp [IndexerState.cost]
    have : (IndexerState.recv x).cost = 6 := rfl
    simp only [State.cost, hi]; omega
  | ixPersistLast x hi => simp only [State.cost, hi, IndexerState.cost]; omega
  | ixCopy x hi => simp only [State.cost, hi, IndexerState.cost]; omega
  | ixUp x hi _ hu => simp only [State.cost, hi, IndexerState.cost, hu, UploaderState.cost]; omega
  | upStore i hu _ => simp only [State.cost, hu, UploaderState.cost]; omega
  | upDrop i hu => simp only [State.cost, hu, UploaderState.cost]; omega
  | upMove i hu _ => simp only [State.cost, hu, UploaderState.cost]; omega
  | upDiscard i hu _ => simp only [State.cost, hu, UploaderState.cost]; omega
  | upExit hu _ _ _ _ _ => simp only [State.cost, hu, UploaderState.cost]; omega
  | join _ hj _ _ _ _ _ => simp [State.cost, hj]

/-- There is a finished state, or a stuck one, at the end of every run. -/
theorem run_on {c : Cfg Id} (s : State Id) :
    ∃ t, Relation.ReflTransGen (Step c) s t ∧ ¬ ∃ u, Step c t u := by
  by_cases h : ∃ u, Step c s u
  · obtain ⟨u, hu⟩ := h
    obtain ⟨t, h1, h2⟩ := run_on u
    exact ⟨t, .head hu h1, h2⟩
  · exact ⟨s, .refl, h⟩
termination_by s.cost
decreasing_by exact cost_step hu

/-! ### Progress -/

/-- The main thread uploads what it found before it sends anything, and what it has yet to
upload is still there. -/
structure Shape (s : State Id) (ups : List Id) : Prop where
  main : ∃ bl : List (Blob Id), s.main = ups.map .up ++ bl.map .send
  nodup : ups.Nodup
  present : ∀ p ∈ ups, p ∈ BMap.keys s.world.cwd.packs
  early : ups ≠ [] → ∀ k, s.pk k = .recv []
  notBusy : ∀ p bs, s.up = .busy (.pack p bs) ∨ s.up = .stored (.pack p bs) → p ∉ ups

theorem shape_other {s t : State Id} {ups : List Id} (h : Shape s ups) (hm : t.main = s.main)
    (hc : t.world.cwd.packs = s.world.cwd.packs) (hp : ups ≠ [] → t.pk = s.pk) (hu : t.up = s.up) :
    Shape t ups := by
  obtain ⟨h1, h2, h3, h4, h5⟩ := h
  exact ⟨by rwa [hm], h2, by rwa [hc], fun hne => by rw [hp hne]; exact h4 hne, by rwa [hu]⟩

theorem shape_drop {s : State Id} {ups : List Id} {i : Item Id} {w : World Id} (h : Shape s ups)
    (hi : s.up = .busy i ∨ s.up = .stored i) (hw : w.cwd = dropItem s.world.cwd i) :
    Shape { s with world := w, up := .idle } ups := by
  obtain ⟨h1, h2, h3, h4, h5⟩ := h
  refine ⟨h1, h2, ?_, h4, by simp⟩
  intro p hp
  simp only [hw]
  cases i with
  | pack q bs =>
    refine BMap.keys_erase_mem.mpr ⟨?_, h3 p hp⟩
    rintro rfl
    exact h5 p bs hi hp
  | index j x => exact h3 p hp

theorem shape_step {c : Cfg Id} {s t : State Id} (hcl : Ctl s) (hs : ∃ ups, Shape s ups) (h : Step c s t) :
    ∃ ups, Shape t ups := by
  obtain ⟨ups, hs⟩ := hs
  have hs' := hs
  obtain ⟨⟨bl, h1⟩, h2, h3, h4, h5⟩ := hs
  have notEarly : ∀ k, s.pk k ≠ .recv [] → ups = [] := by
    intro k hk
    by_contra hne
    exact hk (h4 hne k)
  have quiet : ∀ {t : State Id} k, s.pk k ≠ .recv [] → t.main = s.main → t.up = s.up →
      ∃ ups, Shape t ups := by
    intro t k hk hm hu
    have := notEarly k hk
    subst this
    exact ⟨[], ⟨bl, by rw [hm, h1]⟩, .nil, by simp, by simp, by simp⟩
  cases h with
  | spawn _ _ => exact ⟨ups, shape_other hs' rfl rfl (fun _ => rfl) rfl⟩
  | mainUp p bs rest hm hsp hu hg =>
    cases ups with
    | nil =>
      cases bl with
      | nil => simp [h1] at hm
      | cons b bl => simp [h1] at hm
    | cons q ups =>
      rw [h1] at hm
      simp only [List.map_cons, List.cons_append, List.cons.injEq, Op.up.injEq] at hm
      obtain ⟨rfl, rfl⟩ := hm
      rw [List.nodup_cons] at h2
      refine ⟨ups, ⟨bl, rfl⟩, h2.2, fun p hp => h3 p (by simp [hp]), fun _ => h4 (by simp), ?_⟩
      intro p cs hp
      simp only [UploaderState.busy.injEq, Item.pack.injEq, reduceCtorEq, or_false] at hp
      rw [← hp.1]
      exact h2.1
  | mainSend b cur rest hm hsp hp =>
    cases ups with
    | nil =>
      rw [h1] at hm
      cases bl with
      | nil => simp at hm
      | cons b' bl =>
        simp only [List.map_nil, List.nil_append, List.map_cons, List.cons.injEq] at hm
        exact ⟨[], ⟨bl, by simp [hm.2]⟩, .nil, by simp, by simp, by simp⟩
    | cons q ups => simp [h1] at hm
  | close _ _ => exact ⟨ups, shape_other hs' rfl rfl (fun _ => rfl) rfl⟩
  | endPack k cur hsp hp hne ha =>
    exact quiet (t := { s with world := _, pk := _ }) k (by simp [hp, hne]) rfl rfl
  | packerExit k cur hsp hp hc hz =>
    have := hcl.closedMain hc
    rw [h1] at this
    simp only [List.append_eq_nil_iff, List.map_eq_nil_iff] at this
    obtain ⟨rfl, rfl⟩ := this
    exact ⟨[], ⟨[], h1⟩, .nil, by simp, by simp, by simp⟩
  | packerUp k id bs hp hsp hu =>
    have := notEarly k (by simp [hp])
    subst this
    exact ⟨[], ⟨bl, h1⟩, .nil, by simp, by simp, by simp⟩
  | packerIdx k id bs x hp hsp hi hn =>
    exact quiet (t := { s with ix := _, pk := _ }) k (by simp [hp]) rfl rfl
  | packerDup k id bs x hp hsp hi hn =>
    exact quiet (t := { s with ix := _, pk := _ }) k (by simp [hp]) rfl rfl
  | ixPersist x hi _ => exact ⟨ups, shape_other hs' rfl rfl (fun _ => rfl) rfl⟩
  | ixEmpty x hi _ _ _ _ => exact ⟨ups, shape_other hs' rfl rfl (fun _ => rfl) rfl⟩
  | ixClosed x hi _ _ _ _ => exact ⟨ups, shape_other hs' rfl rfl (fun _ => rfl) rfl⟩
  | ixPersistLast x hi => exact ⟨ups, shape_other hs' rfl rfl (fun _ => rfl) rfl⟩
  | ixCopy x hi => exact ⟨ups, shape_other hs' rfl rfl (fun _ => rfl) rfl⟩
  | ixUp x hi _ hu => exact ⟨ups, ⟨bl, h1⟩, h2, h3, h4, by simp⟩
  | upStore i hu _ =>
    refine ⟨ups, ⟨bl, h1⟩, h2, h3, h4, ?_⟩
    intro p bs hp
    simp only [UploaderState.stored.injEq, reduceCtorEq, false_or] at hp
    exact h5 p bs (.inl (by rw [hu, hp]))
  | upDrop i hu => exact ⟨ups, shape_drop hs' (.inr hu) rfl⟩
  | upMove i hu _ => exact ⟨ups, shape_drop hs' (.inl hu) rfl⟩
  | upDiscard i hu _ => exact ⟨ups, shape_drop hs' (.inl hu) rfl⟩
  | upExit hu _ _ _ _ _ => exact ⟨ups, ⟨bl, h1⟩, h2, h3, h4, by simp⟩
  | join _ _ _ _ _ _ _ => exact ⟨ups, shape_other hs' rfl rfl (fun _ => rfl) rfl⟩

theorem shape {c : Cfg Id} {w : World Id} {ups : List Id} {bl : List (Blob Id)} {s : State Id}
    (hn : ups.Nodup) (hp : ∀ p ∈ ups, p ∈ BMap.keys w.cwd.packs)
    (h : Reachable c w (ups.map .up ++ bl.map .send) s) : ∃ ups, Shape s ups :=
  reach_induct' (P := fun s => ∃ ups, Shape s ups)
    ⟨ups, ⟨bl, rfl⟩, hn, hp, fun _ _ => rfl, by simp [init]⟩ (fun _ _ hc hs => shape_step hc hs) h

theorem running_le (s : State Id) : s.running ≤ s.spawned := by
  have h1 : ∀ p : PackerState Id, p.running ≤ 1 := by intro p; cases p <;> simp [PackerState.running]
  have h2 : ∀ p : IndexerState Id, p.running ≤ 1 := by intro p; cases p <;> simp [IndexerState.running]
  have h3 : ∀ p : UploaderState Id, p.running ≤ 1 := by intro p; cases p <;> simp [UploaderState.running]
  have a := h1 (s.pk .chunk)
  have b := h1 (s.pk .tree)
  have d := h2 s.ix
  have e := h3 s.up
  unfold State.running
  split <;> split <;> split <;> split <;> omega

/-- With enough permits, some thread can always go on. -/
theorem progress {c : Cfg Id} {s : State Id} {ups : List Id} (hc : Ctl s) (hs : Shape s ups)
    (hcores : 4 ≤ c.cores) (hall : ∀ k cur, s.pk k = .recv cur → cur ≠ [] → c.allowed cur) (hd : s.ix ≠ .dead)
    (hj : s.joined = false) : ∃ t, Step c s t := by
  have hno : ∀ k, packerNo k < 4 := by intro k; cases k <;> simp [packerNo]
  by_cases hsp : s.spawned < 4
  · exact ⟨_, .spawn s hsp (by have := running_le s; omega)⟩
  have hsp : s.spawned = 4 := by have := hc.spawnLe; omega
  cases hu : s.up with
  | busy i =>
    cases hl : c.live with
    | true => exact ⟨_, .upStore s i hu hl⟩
    | false => exact ⟨_, .upDiscard s i hu hl⟩
  | stored i => exact ⟨_, .upDrop s i hu⟩
  | exited =>
    obtain ⟨x, hx⟩ := hc.upExit hu
    have hex := hc.ixLate (by rw [hx]; rfl)
    exact ⟨_, .join s (hc.exitClosed _ (hex .chunk)) hj hsp (hex _) (hex _) ⟨x, hx⟩ hu⟩
  | idle =>
    by_cases hsu : ∃ k id bs, s.pk k = .sendUp id bs
    · obtain ⟨k, id, bs, hk⟩ := hsu
      exact ⟨_, .packerUp s k id bs hk (by omega) hu⟩
    cases hi : s.ix with
    | dead => exact absurd hi hd
    | persist x => exact ⟨_, .ixPersist s x hi (by omega)⟩
    | persistLast x => exact ⟨_, .ixPersistLast s x hi⟩
    | copy x => exact ⟨_, .ixCopy s x hi⟩
    | sendUp x => exact ⟨_, .ixUp s x hi (by omega) hu⟩
    | exited x =>
      have hex := hc.ixLate (by rw [hi]; rfl)
      exact ⟨_, .upExit s hu (by omega) (hc.exitClosed _ (hex .chunk)) (hex _) (hex _) ⟨x, hi⟩⟩
    | recv x =>
      by_cases hsi : ∃ k id bs, s.pk k = .sendIdx id bs
      · obtain ⟨k, id, bs, hk⟩ := hsi
        by_cases hin : id ∈ BMap.keys x.packs
        · exact ⟨_, .packerDup s k id bs x hk (by omega) hi hin⟩
        · exact ⟨_, .packerIdx s k id bs x hk (by omega) hi hin⟩
      have hpk : ∀ k, (∃ cur, s.pk k = .recv cur) ∨ s.pk k = .exited := by
        intro k
        cases hk : s.pk k with
        | recv cur => exact .inl ⟨cur, rfl⟩
        | exited => exact .inr rfl
        | sendUp id bs => exact absurd ⟨k, id, bs, hk⟩ hsu
        | sendIdx id bs => exact absurd ⟨k, id, bs, hk⟩ hsi
      cases hm : s.main with
      | cons o rest =>
        cases o with
        | up p =>
          obtain ⟨⟨bl, h1⟩, _, h3, _, _⟩ := hs
          cases ups with
          | nil => rw [h1] at hm; cases bl <;> simp at hm
          | cons q ups =>
            rw [h1] at hm
            simp only [List.map_cons, List.cons_append, List.cons.injEq, Op.up.injEq] at hm
            obtain ⟨rfl, _⟩ := hm
            obtain ⟨bs, hbs⟩ := BMap.mem_keys_iff.mp (h3 q (by simp))
            exact ⟨_, .mainUp s q bs (ups.map .up ++ bl.map .send) (by simp [h1]) (by omega) hu hbs⟩
        | send b =>
          rcases hpk b.kind with ⟨cur, hk⟩ | hk
          · exact ⟨_, .mainSend s b cur rest hm (by have := hno b.kind; omega) hk⟩
          · simp [hc.closedMain (hc.exitClosed _ hk)] at hm
      | nil =>
        cases hcl : s.closed with
        | false => exact ⟨_, .close s hm hcl⟩
        | true =>
          by_cases hr : ∃ k cur, s.pk k = .recv cur
          · obtain ⟨k, cur, hk⟩ := hr
            by_cases hz : (Pack.contentOf cur).length = 0
            · exact ⟨_, .packerExit s k cur (by have := hno k; omega) hk hcl hz⟩
            · have hcur : cur ≠ [] := by
                rintro rfl
                simp [Pack.contentOf] at hz
              exact ⟨_, .endPack s k cur (by have := hno k; omega) hk hcur (hall k cur hk hcur)⟩
          · have hex : ∀ k, s.pk k = .exited := fun k =>
              (hpk k).resolve_left (fun ⟨cur, h⟩ => hr ⟨k, cur, h⟩)
            cases he : x.isEmpty with
            | true => exact ⟨_, .ixEmpty s x hi (by omega) (hex _) (hex _) he⟩
            | false => exact ⟨_, .ixClosed s x hi (by omega) (hex _) (hex _) he⟩

/-! ### The indexer never gets a pack twice -/

theorem not_dead {c : Cfg Id} {w : World Id} {main : List (Op Id)} {s : State Id} (hw : WorldOk c w)
    (hsort : BMap.Sorted c.start.packs) (hne : ∀ b ∈ sends main, b.data ≠ [])
    (hinj : ∀ a b, c.allowed a → c.allowed b →
      c.ids.packId (Pack.manifestOf a) = c.ids.packId (Pack.manifestOf b) → a = b)
    (hnd : (sends main).Nodup)
    (hstart : ∀ p m, (p, m) ∈ c.start.packs → ∃ bs, Good c p bs ∧ m = Pack.manifestOf bs ∧
      ∀ b ∈ sends main, b ∉ bs)
    (h : Reachable c w main s) : s.ix ≠ .dead := by
  induction h with
  | refl => simp only [init]; split <;> simp
  | @tail s t hr hstep ih =>
    have hn := named hw hr
    obtain ⟨news, ha⟩ := (acct hw hsort hne hr).resolve_left ih
    cases hstep with
    | packerDup k id bs x hp hsp hi hin =>
      exfalso
      have hg := hn.pk k id bs (.inr hp)
      have hbne := ha.ne k id bs (.inr hp)
      obtain ⟨b, hb⟩ := List.exists_mem_of_ne_nil bs hbne
      obtain ⟨m, hm⟩ := BMap.mem_keys_iff.mp hin
      have hm := BMap.mem_of_get? hm
      have hhold : ∀ b ∈ bs, b ∈ (s.pk .chunk).hold ++ ((s.pk .tree).hold ++ sends s.main) := by
        intro b hb
        cases k <;> simp [hp, PackerState.hold, hb]
      have hmem : (id, m) ∈ idxPacks s.ix := by rw [hi]; exact hm
      rcases List.mem_append.mp (ha.packs.subset hmem) with hm | hm
      · obtain ⟨cs, hg', _, hno⟩ := hstart id m hm
        have : bs = cs := hinj _ _ hg.2 hg'.2 (hg.1.symm.trans hg'.1)
        subst this
        exact hno b (ha.blobs.subset (List.mem_append.mpr (.inr (hhold b hb)))) hb
      · obtain ⟨⟨q, cs⟩, he, heq⟩ := List.mem_map.mp hm
        simp only [Prod.mk.injEq] at heq
        obtain ⟨rfl, _⟩ := heq
        have hg' := ha.good _ he
        have : bs = cs := hinj _ _ hg.2 hg'.2 (hg.1.symm.trans hg'.1)
        subst this
        have hnd' := ha.blobs.nodup_iff.mpr hnd
        rw [List.nodup_append] at hnd'
        exact hnd'.2.2 b (List.mem_flatMap.mpr ⟨_, he, hb⟩) b (hhold b hb) rfl
    | packerIdx k id bs x hp hsp hi hnin => simp only; split <;> simp
    | ixClosed x hi _ _ _ _ => simp only; split <;> simp
    | _ => first | exact ih | simp

/-- What a packer holds is among the blobs sent. -/
theorem hold_subperm {c : Cfg Id} {main : List (Op Id)} {s : State Id} {news : List (Id × Pack Id)}
    (ha : Acct c main s news) (k : Kind) : (s.pk k).hold.Subperm (sends main) := by
  refine List.Subperm.trans ?_ ha.blobs.subperm
  refine List.Sublist.subperm ?_
  refine List.Sublist.trans ?_ (List.sublist_append_right _ _)
  cases k
  · exact List.sublist_append_left _ _
  · exact (List.sublist_append_left _ _).trans (List.sublist_append_right _ _)

/-! ### Too few permits -/

/-- Too few permits and something of each kind to pack: the uploader is never started. -/
structure Stalled (s : State Id) : Prop where
  spawned : s.spawned ≤ 3
  closedMain : s.closed = true → s.main = []
  pk : ∀ k, s.pk k ≠ .exited ∧ ∀ p bs, s.pk k ≠ .sendIdx p bs
  ix : s.ix.late = false
  up : s.up = .idle
  work : ∀ k, ∃ b ∈ (s.pk k).hold ++ sends s.main, b.kind = k ∧ b.data ≠ []
  joined : s.joined = false

theorem stalled_step {c : Cfg Id} {s t : State Id} (hcores : c.cores ≤ 3) (hs : Stalled s)
    (h : Step c s t) : Stalled t := by
  obtain ⟨h1, h2, h3, h4, h5, h6, h7⟩ := hs
  have updp : ∀ k v, (v ≠ .exited ∧ ∀ p bs, v ≠ .sendIdx p bs) → ∀ k',
      Function.update s.pk k v k' ≠ .exited ∧ ∀ p bs, Function.update s.pk k v k' ≠ .sendIdx p bs := by
    intro k v hv k'
    rw [Function.update_apply]
    split
    · exact hv
    · exact h3 k'
  have ixr : s.ix.running = 1 := by
    cases hi : s.ix <;> simp_all [IndexerState.running, IndexerState.late]
  have pkr : ∀ k, (s.pk k).running = 1 := by
    intro k
    have := (h3 k).1
    cases hk : s.pk k <;> simp_all [PackerState.running]
  cases h with
  | spawn hlt hr =>
    refine ⟨?_, h2, h3, h4, h5, h6, h7⟩
    simp only [State.running, pkr, ixr] at hr
    by_contra hcon
    have h3' : s.spawned = 3 := by simp at hcon; omega
    simp [h3'] at hr
    omega
  | mainUp p bs rest hm hsp hu hg => omega
  | mainSend b cur rest hm hsp hp =>
    refine ⟨h1, ?_, updp _ _ (by simp), h4, h5, ?_, h7⟩
    · intro hc; simp [h2 hc] at hm
    · intro k
      obtain ⟨b', hb', hk⟩ := h6 k
      refine ⟨b', ?_, hk⟩
      simp only [hm, sends, List.filterMap_cons, List.mem_append, List.mem_cons] at hb'
      simp only
      rw [Function.update_apply]
      rcases hb' with hb' | rfl | hb'
      · split
        · rename_i he
          subst he
          simp only [hp, PackerState.hold] at hb'
          simp [PackerState.hold, hb']
        · simp [hb']
      · rw [if_pos hk.1.symm]; simp [PackerState.hold]
      · exact List.mem_append.mpr (.inr hb')
  | close hm hc => exact ⟨h1, fun _ => hm, h3, h4, h5, h6, h7⟩
  | endPack k cur hsp hp hne ha =>
    refine ⟨h1, h2, updp _ _ (by simp), h4, h5, ?_, h7⟩
    intro k'
    obtain ⟨b', hb', hk⟩ := h6 k'
    refine ⟨b', ?_, hk⟩
    simp only
    rw [Function.update_apply]
    split
    · rename_i he; subst he; simpa [hp, PackerState.hold] using hb'
    · exact hb'
  | packerExit k cur hsp hp hc hz =>
    exfalso
    obtain ⟨b', hb', _, hk⟩ := h6 k
    simp only [h2 hc, hp, PackerState.hold, sends, List.filterMap_nil, List.append_nil] at hb'
    rw [Pack.contentOf, List.length_eq_zero_iff, List.flatten_eq_nil_iff] at hz
    exact hk (hz _ (List.mem_map.mpr ⟨b', hb', rfl⟩))
  | packerUp k id bs hp hsp hu => omega
  | packerIdx k id bs x hp hsp hi hn => exact absurd hp ((h3 k).2 _ _)
  | packerDup k id bs x hp hsp hi hn => exact absurd hp ((h3 k).2 _ _)
  | ixPersist x hi _ => exact ⟨h1, h2, h3, rfl, h5, h6, h7⟩
  | ixEmpty x hi _ hc _ _ => exact absurd hc (h3 _).1
  | ixClosed x hi _ hc _ _ => exact absurd hc (h3 _).1
  | ixPersistLast x hi => simp [hi, IndexerState.late] at h4
  | ixCopy x hi => simp [hi, IndexerState.late] at h4
  | ixUp x hi _ hu => simp [hi, IndexerState.late] at h4
  | upStore i hu _ => simp [h5] at hu
  | upDrop i hu => simp [h5] at hu
  | upMove i hu _ => simp [h5] at hu
  | upDiscard i hu _ => simp [h5] at hu
  | upExit hu _ _ hc _ _ => exact absurd hc (h3 _).1
  | join _ _ _ hc _ _ _ => exact absurd hc (h3 _).1

end Backpak.Pipeline
