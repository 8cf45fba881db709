import Verif.Spec.Leftover
import Verif.Lemmas.Walk
import Verif.Lemmas.Pipeline2
import Verif.Props.C15

/-!
# What a run of the pipeline does to a repository
-/

namespace Backpak

open Spec Pipeline

variable {Id : Type} [LinearOrder Id] {C : Codec Id}

theorem Ledger.mono {L L' : Id → Pack Id → Prop} (h : Ledger C L) (hl : ∀ p bs, L' p bs → L p bs) :
    Ledger C L' where
  one p bs bs' h1 h2 := h.one p bs bs' (hl _ _ h1) (hl _ _ h2)
  distinct p bs h1 := h.distinct p bs (hl _ _ h1)
  once p bs p' bs' b b' h1 h2 := h.once p bs p' bs' b b' (hl _ _ h1) (hl _ _ h2)
  one_kind p bs h1 := h.one_kind p bs (hl _ _ h1)
  hashes p bs b h1 := h.hashes p bs b (hl _ _ h1)
  trees p bs b h1 := h.trees p bs b (hl _ _ h1)
  full p bs b h1 := h.full p bs b (hl _ _ h1)

theorem entry_ids (bs : Pack Id) : (Pack.manifestOf bs).map Entry.id = bs.map Blob.id := by
  unfold Pack.manifestOf
  rw [List.map_map]
  rfl

theorem Sound.ledger {R : Repo Id} (h : Sound C R) : Ledger C (LivePack R) where
  one p bs bs' h1 h2 := h.pack_one h1.2 h2.2
  distinct p bs h1 := by rw [← entry_ids]; exact h.distinct p _ h1.1
  once p bs p' bs' b b' h1 h2 hb hb' he :=
    h.once p _ p' _ (Pack.entryOf b) (Pack.entryOf b') h1.1 h2.1
      (List.mem_map.mpr ⟨b, hb, rfl⟩) (List.mem_map.mpr ⟨b', hb', rfl⟩) he
  one_kind p bs h1 := by
    obtain ⟨k, hk⟩ := h.one_kind p _ h1.1
    exact ⟨k, fun b hb => hk _ (List.mem_map.mpr ⟨b, hb, rfl⟩)⟩
  hashes p bs b h1 := h.hashes p bs b h1.1 h1.2
  trees p bs b h1 := h.trees p bs b h1.1 h1.2
  full p bs b h1 := h.full p bs b h1.1 h1.2

theorem Ledger.sound {R : Repo Id} (h : Ledger C (LivePack R)) (h1 : BMap.Sorted R.packs)
    (h2 : BMap.Sorted R.indexes)
    (h3 : ∀ p m, Listed R.indexes p m → ∃ bs, (p, bs) ∈ R.packs ∧ Pack.manifestOf bs = m) : Sound C R where
  packs_sorted := h1
  indexes_sorted := h2
  present := h3
  distinct p m hl := by
    obtain ⟨bs, hb, rfl⟩ := h3 p m hl
    rw [entry_ids]; exact h.distinct p bs ⟨hl, hb⟩
  once p m p' m' e e' hl hl' he he' hid := by
    obtain ⟨bs, hb, rfl⟩ := h3 p m hl
    obtain ⟨bs', hb', rfl⟩ := h3 p' m' hl'
    obtain ⟨b, hm, rfl⟩ := List.mem_map.mp he
    obtain ⟨b', hm', rfl⟩ := List.mem_map.mp he'
    exact h.once p bs p' bs' b b' ⟨hl, hb⟩ ⟨hl', hb'⟩ hm hm' hid
  one_kind p m hl := by
    obtain ⟨bs, hb, rfl⟩ := h3 p m hl
    obtain ⟨k, hk⟩ := h.one_kind p bs ⟨hl, hb⟩
    refine ⟨k, fun e he => ?_⟩
    obtain ⟨b, hm, rfl⟩ := List.mem_map.mp he
    exact hk b hm
  hashes p bs b hl hb := h.hashes p bs b ⟨hl, hb⟩
  trees p bs b hl hb := h.trees p bs b ⟨hl, hb⟩
  full p bs b hl hb := h.full p bs b ⟨hl, hb⟩

/-- Blobs fit to be added: no ID twice, none a live pack has, each the hash of its bytes, and
trees encoded as the program encodes them. -/
structure Fresh (C : Codec Id) (L : Id → Pack Id → Prop) (bs : List (Blob Id)) : Prop where
  nodup : (bs.map Blob.id).Nodup
  new : ∀ b ∈ bs, ∀ p cs, L p cs → ∀ b' ∈ cs, b'.id ≠ b.id
  ne : ∀ b ∈ bs, b.data ≠ []
  hashes : ∀ b ∈ bs, C.hash b.data = b.id
  trees : ∀ b ∈ bs, b.kind = .tree →
    ∃ t, Serde.OkTree t ∧ b.data = C.encTree t ∧ (b.id = C.emptyId → t = [])

/-- Packs made of fresh blobs can be added. -/
theorem Ledger.add {L : Id → Pack Id → Prop} (h : Ledger C L) {ss : List (Blob Id)}
    (hf : Fresh C L ss) {news : List (Id × Pack Id)} (hp : (news.flatMap Prod.snd).Perm ss)
    (hk : ∀ e ∈ news, e.2 ≠ [] ∧ ∃ k, ∀ b ∈ e.2, b.kind = k)
    (hone : ∀ p bs bs', L p bs ∨ (p, bs) ∈ news → L p bs' ∨ (p, bs') ∈ news → bs = bs') :
    Ledger C (fun p bs => L p bs ∨ (p, bs) ∈ news) := by
  have hmem : ∀ p bs b, (p, bs) ∈ news → b ∈ bs → b ∈ ss :=
    fun p bs b hn hb => hp.subset (List.mem_flatMap.mpr ⟨_, hn, hb⟩)
  have hnd : (news.flatMap (fun e => e.2.map Blob.id)).Nodup := by
    have := (hp.map Blob.id).nodup_iff.mpr hf.nodup
    rwa [List.map_flatMap] at this
  refine ⟨hone, ?_, ?_, ?_, ?_, ?_, ?_⟩
  · rintro p bs (h1 | h1)
    · exact h.distinct p bs h1
    · exact (List.nodup_flatMap.mp hnd).1 _ h1
  · rintro p bs p' bs' b b' (h1 | h1) (h2 | h2) hb hb' he
    · exact h.once p bs p' bs' b b' h1 h2 hb hb' he
    · exact absurd he (hf.new b' (hmem _ _ _ h2 hb') p bs h1 b hb)
    · exact absurd he.symm (hf.new b (hmem _ _ _ h1 hb) p' bs' h2 b' hb')
    · by_contra hne
      have hpw := (List.nodup_flatMap.mp hnd).2
      have := List.Pairwise.forall_of_forall_of_flip (R := fun a c : Id × Pack Id => a ≠ c →
          List.Disjoint (a.2.map Blob.id) (c.2.map Blob.id)) (l := news)
          (fun a _ hn => absurd rfl hn) (hpw.imp (fun h _ _ h1 h2 => h h1 h2))
          (hpw.imp (by intro a c h _ i h1 h2; exact h h2 h1)) h1 h2 (by
            intro e; cases e; exact hne rfl)
      exact this (List.mem_map.mpr ⟨b, hb, rfl⟩) (List.mem_map.mpr ⟨b', hb', he.symm⟩)
  · rintro p bs (h1 | h1)
    · exact h.one_kind p bs h1
    · exact (hk _ h1).2
  · rintro p bs b (h1 | h1) hb
    · exact h.hashes p bs b h1 hb
    · exact hf.hashes b (hmem _ _ _ h1 hb)
  · rintro p bs b (h1 | h1) hb hk
    · exact h.trees p bs b h1 hb hk
    · exact hf.trees b (hmem _ _ _ h1 hb) hk
  · rintro p bs b (h1 | h1) hb
    · exact h.full p bs b h1 hb
    · exact hf.ne b (hmem _ _ _ h1 hb)

/-- No two packs of the run have manifests with one hash. -/
def PackInj (c : Cfg Id) : Prop :=
  ∀ a b, c.allowed a → c.allowed b →
    c.ids.packId (Pack.manifestOf a) = c.ids.packId (Pack.manifestOf b) → a = b

/-- What is asked of a run. -/
structure RunOk (c : Cfg Id) (w : World Id) (main : List (Op Id)) : Prop where
  live : c.live = true
  inj : PackInj c
  world : WorldOk c w
  start : C12.StartOk c w main
  startSort : BMap.Sorted c.start.packs
  startGood : ∀ p m, (p, m) ∈ c.start.packs → ∃ bs, Good c p bs ∧ m = Pack.manifestOf bs
  ne : ∀ b ∈ sends main, b.data ≠ []

/-- The index a run adds, and the packs it forms. -/
structure NewIndex (c : Cfg Id) (R R' : Repo Id) (ss : List (Blob Id)) (x : Index Id)
    (news : List (Id × Pack Id)) : Prop where
  put : R'.indexes = BMap.insert (c.ids.indexId x) x R.indexes
  sup : x.supersedes = c.start.supersedes
  sorted : BMap.Sorted x.packs
  packs : x.packs.Perm (c.start.packs ++ news.map (fun e => (e.1, Pack.manifestOf e.2)))
  blobs : (news.flatMap Prod.snd).Perm ss
  good : ∀ e ∈ news, Good c e.1 e.2
  kinds : ∀ e ∈ news, e.2 ≠ [] ∧ ∃ k, ∀ b ∈ e.2, b.kind = k
  there : ∀ p m, (p, m) ∈ x.packs → ∃ bs, (p, bs) ∈ R'.packs ∧ Pack.manifestOf bs = m

/-- What a run does to the repository, up to any instant before the operations after the join. -/
structure Effect (c : Cfg Id) (R R' : Repo Id) (ss : List (Blob Id)) : Prop where
  snaps : R'.snapshots = R.snapshots
  keep : ∀ e ∈ R.packs, e ∈ R'.packs
  names : ∀ p bs, (p, bs) ∈ R'.packs → Good c p bs
  psort : BMap.Sorted R'.packs
  isort : BMap.Sorted R'.indexes
  idx : R'.indexes = R.indexes ∨ ∃ x news, NewIndex c R R' ss x news

/-- Once the indexer has handed over its index, no pack is being uploaded. -/
theorem busy_index {c : Cfg Id} {w : World Id} {main : List (Op Id)} {s : State Id}
    (h : Reachable c w main s) : ∀ x, s.ix = .exited (some x) → ∀ p bs, s.up ≠ .busy (.pack p bs) := by
  refine reach_induct' (P := fun s => ∀ x, s.ix = .exited (some x) → ∀ p bs, s.up ≠ .busy (.pack p bs))
    ?_ ?_ h
  · intro x hx
    simp only [init] at hx
    split at hx <;> simp at hx
  · intro s t hc hp hstep
    cases hstep with
    | mainUp p bs rest hm _ _ _ =>
      intro x hx
      have := hc.closedMain (hc.exitClosed .chunk (hc.ixLate (by simp only at hx; rw [hx]; rfl) .chunk))
      simp [this] at hm
    | packerUp k id bs hk _ _ =>
      intro x hx
      have := hc.ixLate (by simp only at hx; rw [hx]; rfl) k
      simp [this] at hk
    | packerIdx k id bs x hk _ hi _ =>
      intro y hy
      simp only at hy
      split at hy <;> simp at hy
    | ixClosed x hi _ _ _ _ =>
      intro y hy
      simp only at hy
      split at hy <;> simp at hy
    | packerDup _ _ _ _ _ _ _ _ | ixPersist _ _ _ | ixEmpty _ _ _ _ _ _
    | ixPersistLast _ _ | ixCopy _ _ | ixUp _ _ _ _ => simp
    | upStore _ _ _ | upDrop _ _ | upMove _ _ _ | upDiscard _ _ _ | upExit _ _ _ _ _ _ => simp
    | spawn _ _ | mainSend _ _ _ _ _ _ | close _ _ | endPack _ _ _ _ _ _
    | packerExit _ _ _ _ _ _ | join _ _ _ _ _ _ _ => exact hp

theorem newIndex {c : Cfg Id} {w : World Id} {main : List (Op Id)} (hr : RunOk c w main)
    {s : State Id} (h : Reachable c w main s) {x : Index Id} (hix : s.ix = .exited (some x))
    (hput : s.world.repo.indexes = BMap.insert (c.ids.indexId x) x w.repo.indexes) :
    ∃ news, NewIndex c w.repo s.world.repo (sends main) x news := by
  have hc := ctl h
  have hex := hc.ixLate (by rw [hix]; rfl)
  have hmain := hc.closedMain (hc.exitClosed .chunk (hex .chunk))
  rcases acct hr.world hr.startSort hr.ne h with hd | ⟨news, ha⟩
  · rw [hix] at hd; cases hd
  · have hb := ha.blobs
    simp only [hex, PackerState.hold, hmain, sends, List.filterMap_nil, List.append_nil] at hb
    have hp := ha.packs
    have hs := ha.sort
    rw [hix] at hp hs
    refine ⟨news, hput, ha.sup x (by rw [hix]; rfl), hs, hp, hb, ha.good, ha.kinds, ?_⟩
    intro p m hm
    have hk : p ∈ BMap.keys s.world.repo.packs := by
      rcases (data hr.live hr.start h).ix x (by rw [hix]; rfl) p (BMap.mem_keys_of_mem hm) with
        (hk | ⟨bs, hk⟩) | hk
      · exact hk
      · exact absurd hk (busy_index h x hix p bs)
      · simp [hmain] at hk
    obtain ⟨bs, hbs⟩ := BMap.mem_keys_iff.mp hk
    have hmem := BMap.mem_of_get? hbs
    obtain ⟨g1, g2⟩ := (named hr.world h).repo p bs hmem
    have hgood : ∃ cs, Good c p cs ∧ m = Pack.manifestOf cs := by
      rcases List.mem_append.mp (hp.subset hm) with hm | hm
      · exact hr.startGood p m hm
      · obtain ⟨⟨q, cs⟩, he, heq⟩ := List.mem_map.mp hm
        simp only [Prod.mk.injEq] at heq
        obtain ⟨rfl, rfl⟩ := heq
        exact ⟨cs, ha.good _ he, rfl⟩
    obtain ⟨cs, ⟨c1, c2⟩, rfl⟩ := hgood
    refine ⟨bs, hmem, ?_⟩
    rw [hr.inj bs cs g2 c2 (g1.symm.trans c1)]

/-- At every instant before the operations after the join. -/
theorem effect {c : Cfg Id} {w : World Id} {main : List (Op Id)} (hr : RunOk c w main)
    {s : State Id} (h : Reachable c w main s) : Effect c w.repo s.world.repo (sends main) := by
  have hf := filed hr.live h
  have hn := named hr.world h
  refine ⟨hf.snaps, keep hr.world hr.inj h, hn.repo, hn.rsort, hn.isort, ?_⟩
  by_cases hex : ∃ y, s.ix = .exited (some y)
  · obtain ⟨y, hy⟩ := hex
    by_cases hb : ∃ j z, s.up = .busy (.index j z)
    · obtain ⟨j, z, hz⟩ := hb
      exact .inl (hf.busy j z hz).2.2
    · exact .inr ⟨y, newIndex hr h hy (hf.put y hy (fun j z hz => hb ⟨j, z, hz⟩))⟩
  · exact .inl (hf.notYet (fun y hy => hex ⟨y, hy⟩))

/-- Once the uploader is done. -/
theorem effect_exited {c : Cfg Id} {w : World Id} {main : List (Op Id)} (hr : RunOk c w main)
    {s : State Id} (h : Reachable c w main s) (hup : s.up = .exited) :
    (c.start.isEmpty = true ∧ sends main = [] ∧ s.world.repo.indexes = w.repo.indexes) ∨
    ∃ x news, NewIndex c w.repo s.world.repo (sends main) x news := by
  have hc := ctl h
  obtain ⟨ox, hix⟩ := hc.upExit hup
  cases ox with
  | some x => exact .inr ⟨x, newIndex hr h hix ((filed hr.live h).put x hix (by simp [hup]))⟩
  | none =>
    left
    have hex := hc.ixLate (by rw [hix]; rfl)
    have hmain := hc.closedMain (hc.exitClosed .chunk (hex .chunk))
    rcases acct hr.world hr.startSort hr.ne h with hd | ⟨news, ha⟩
    · rw [hix] at hd; cases hd
    · have hb := ha.blobs
      simp only [hex, PackerState.hold, hmain, sends, List.filterMap_nil, List.append_nil] at hb
      have hp := ha.packs
      rw [hix] at hp
      simp only [idxPacks, IndexerState.idx] at hp
      have hnil := hp.symm.eq_nil
      simp only [List.append_eq_nil_iff, List.map_eq_nil_iff] at hnil
      rw [hnil.2] at hb
      simp only [List.flatMap_nil] at hb
      refine ⟨?_, hb.symm.eq_nil, (filed hr.live h).notYet (by simp [hix])⟩
      simp [Index.isEmpty, ha.some_idx (by rw [hix]; rfl), hnil.1]

/-- Once the threads are joined. -/
theorem effect_joined {c : Cfg Id} {w : World Id} {main : List (Op Id)} (hr : RunOk c w main)
    {s : State Id} (h : Reachable c w main s) (hj : s.joined = true) :
    (c.start.isEmpty = true ∧ sends main = [] ∧ s.world.repo.indexes = w.repo.indexes) ∨
    ∃ x news, NewIndex c w.repo s.world.repo (sends main) x news :=
  effect_exited hr h ((ctl h).joinedUp hj)

end Backpak
