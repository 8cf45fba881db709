import Verif.Lemmas.Pipeline2
import Verif.Props.C12

/-!
# C15 - A finished backup pipeline indexed exactly what it was given
-/

namespace Backpak.C15

open Pipeline

variable {Id : Type} [LinearOrder Id]

/-- When the threads have been joined, either there was nothing to do and no index was written,
or one index was: it lists the starting packs and new packs which together hold exactly the
blobs sent, each as often as it was sent. No new pack is empty or mixes chunks and trees,
and every listed pack is in the repository. -/
theorem finished_exact (c : Cfg Id) (w : World Id) (main : List (Op Id)) (s : State Id)
    (hlive : c.live = true) (h0 : C12.StartOk c w main) (hw : WorldOk c w)
    (hsort : BMap.Sorted c.start.packs) (hne : ∀ b ∈ sends main, b.data ≠ [])
    (h : Reachable c w main s) (hj : s.joined = true) :
    s.world.repo.snapshots = w.repo.snapshots ∧
    ((c.start.isEmpty = true ∧ sends main = [] ∧ s.world.repo.indexes = w.repo.indexes) ∨
    ∃ (x : Index Id) (news : List (Id × Pack Id)),
      s.world.repo.indexes = BMap.insert (c.ids.indexId x) x w.repo.indexes ∧
      x.supersedes = c.start.supersedes ∧
      x.packs.Perm (c.start.packs ++ news.map (fun e => (e.1, Pack.manifestOf e.2))) ∧
      (news.flatMap Prod.snd).Perm (sends main) ∧
      (∀ e ∈ news, e.1 = c.ids.packId (Pack.manifestOf e.2) ∧ e.2 ≠ [] ∧
        ∃ k, ∀ b ∈ e.2, b.kind = k) ∧
      ∀ p ∈ BMap.keys x.packs, p ∈ BMap.keys s.world.repo.packs) := by
  have hc := ctl h
  have hf := filed hlive h
  refine ⟨hf.snaps, ?_⟩
  have hup := hc.joinedUp hj
  obtain ⟨ox, hix⟩ := hc.upExit hup
  have hex := hc.ixLate (by rw [hix]; rfl)
  have hmain := hc.closedMain (hc.exitClosed .chunk (hex .chunk))
  rcases acct hw hsort hne h with hd | ⟨news, ha⟩
  · rw [hix] at hd; cases hd
  · have hb := ha.blobs
    simp only [hex, PackerState.hold, hmain, sends, List.filterMap_nil, List.append_nil] at hb
    cases ox with
    | none =>
      left
      have hp := ha.packs
      rw [hix] at hp
      simp only [idxPacks, IndexerState.idx] at hp
      have hnil := hp.symm.eq_nil
      simp only [List.append_eq_nil_iff, List.map_eq_nil_iff] at hnil
      rw [hnil.2] at hb
      simp only [List.flatMap_nil] at hb
      refine ⟨?_, hb.symm.eq_nil, hf.notYet (by simp [hix])⟩
      simp [Index.isEmpty, ha.some_idx (by rw [hix]; rfl), hnil.1]
    | some x =>
      right
      have hput := hf.put x hix (by simp [hup])
      refine ⟨x, news, hput, ha.sup x (by rw [hix]; rfl), ?_, hb, ?_, ?_⟩
      · have := ha.packs
        rwa [hix] at this
      · intro e he
        exact ⟨(ha.good e he).1, ha.kinds e he⟩
      · intro p hp
        rcases (data hlive h0 h).ix x (by rw [hix]; rfl) p hp with (hk | ⟨bs, hk⟩) | hk
        · exact hk
        · simp [hup] at hk
        · simp [hmain] at hk

/-- The packs listed are in the repository with exactly the listed contents, when no two packs of
the run have manifests with one hash. -/
theorem finished_contents (c : Cfg Id) (w : World Id) (main : List (Op Id)) (s : State Id)
    (hlive : c.live = true) (h0 : C12.StartOk c w main) (hw : WorldOk c w)
    (hinj : ∀ a b, c.allowed a → c.allowed b →
      c.ids.packId (Pack.manifestOf a) = c.ids.packId (Pack.manifestOf b) → a = b)
    (hsort : BMap.Sorted c.start.packs) (hne : ∀ b ∈ sends main, b.data ≠ [])
    (h : Reachable c w main s) (hj : s.joined = true) (b : Blob Id) (hb : b ∈ sends main) :
    ∃ i x p bs, (i, x) ∈ s.world.repo.indexes ∧ (p, Pack.manifestOf bs) ∈ x.packs ∧
      (p, bs) ∈ s.world.repo.packs ∧ b ∈ bs := by
  have hc := ctl h
  have hup := hc.joinedUp hj
  obtain ⟨ox, hix⟩ := hc.upExit hup
  have hex := hc.ixLate (by rw [hix]; rfl)
  have hmain := hc.closedMain (hc.exitClosed .chunk (hex .chunk))
  rcases acct hw hsort hne h with hd | ⟨news, ha⟩
  · rw [hix] at hd; cases hd
  · have hbl := ha.blobs
    simp only [hex, PackerState.hold, hmain, sends, List.filterMap_nil, List.append_nil] at hbl
    obtain ⟨⟨p, bs⟩, he, hbs⟩ := List.mem_flatMap.mp (hbl.symm.subset hb)
    cases ox with
    | none =>
      have hp := ha.packs
      rw [hix] at hp
      simp only [idxPacks, IndexerState.idx] at hp
      have hnil := hp.symm.eq_nil
      simp only [List.append_eq_nil_iff, List.map_eq_nil_iff] at hnil
      rw [hnil.2] at he
      cases he
    | some x =>
      have hput := (filed hlive h).put x hix (by simp [hup])
      have hx : (p, Pack.manifestOf bs) ∈ x.packs := by
        have := ha.packs
        rw [hix] at this
        exact this.symm.subset (List.mem_append.mpr (.inr (List.mem_map.mpr ⟨_, he, rfl⟩)))
      have hk : p ∈ BMap.keys s.world.repo.packs := by
        rcases (data hlive h0 h).ix x (by rw [hix]; rfl) p (BMap.mem_keys_of_mem hx) with
          (hk | ⟨bs, hk⟩) | hk
        · exact hk
        · simp [hup] at hk
        · simp [hmain] at hk
      obtain ⟨cs, hcs⟩ := BMap.mem_keys_iff.mp hk
      have hmem := BMap.mem_of_get? hcs
      obtain ⟨g1, g2⟩ := (named hw h).repo p cs hmem
      obtain ⟨k1, k2⟩ := ha.good _ he
      have : cs = bs := hinj cs bs g2 k2 (g1.symm.trans k1)
      subst this
      refine ⟨c.ids.indexId x, x, p, cs, ?_, hx, hmem, hbs⟩
      rw [hput]
      exact (BMap.mem_insert_iff hw.isort).mpr (.inl ⟨rfl, rfl⟩)

/-- `C12.exRun` is a finished run. -/
example : ∃ s, Reachable C12.exCfg C12.exWorld [.send C12.exBlob] s ∧ s.joined = true := by
  obtain ⟨s, h, hj, _⟩ := C12.exRun
  exact ⟨s, h, hj⟩

end Backpak.C15
