import Verif.Lemmas.Pipeline2

/-!
# C12 - Indexes never precede their packs

`Instant c w main post w'`: `w'` can be on disk at some instant of a command that started
with `w` on disk, in some interleaving of its threads.
-/

namespace Backpak.C12

open Pipeline

variable {Id : Type} [LinearOrder Id]

/-- The packs the starting index lists are in the repository, or will be uploaded from the
working directory before anything else (what `find_resumable` establishes). -/
def StartOk (c : Cfg Id) (w : World Id) (main : List (Op Id)) : Prop :=
  ∀ p ∈ BMap.keys c.start.packs, p ∈ BMap.keys w.repo.packs ∨ Op.up p ∈ main

/-- At every instant while the threads run, every index in the repository that was not there
before lists only packs that are in the repository. -/
theorem index_after_packs (c : Cfg Id) (w : World Id) (main : List (Op Id)) (s : State Id)
    (hlive : c.live = true) (h0 : StartOk c w main) (h : Reachable c w main s)
    (i : Id) (x : Index Id) (hx : (i, x) ∈ s.world.repo.indexes) (hnew : (i, x) ∉ w.repo.indexes) :
    ∀ p ∈ BMap.keys x.packs, p ∈ BMap.keys s.world.repo.packs := by
  rcases (data hlive h0 h).indexes i x hx with h | h
  · exact absurd h hnew
  · exact h

/-- No pack disappears from the repository while the threads run. -/
theorem packs_stay (c : Cfg Id) (w : World Id) (main : List (Op Id)) (s : State Id)
    (hlive : c.live = true) (h0 : StartOk c w main) (h : Reachable c w main s) (p : Id)
    (hp : p ∈ BMap.keys w.repo.packs) : p ∈ BMap.keys s.world.repo.packs :=
  (data hlive h0 h).keep p hp

/-- So if every index listed only present packs before, every index does at every instant. -/
theorem all_indexes (c : Cfg Id) (w : World Id) (main : List (Op Id)) (s : State Id)
    (hlive : c.live = true) (h0 : StartOk c w main) (h : Reachable c w main s)
    (hbefore : ∀ i x, (i, x) ∈ w.repo.indexes → ∀ p ∈ BMap.keys x.packs, p ∈ BMap.keys w.repo.packs)
    (i : Id) (x : Index Id) (hx : (i, x) ∈ s.world.repo.indexes) :
    ∀ p ∈ BMap.keys x.packs, p ∈ BMap.keys s.world.repo.packs := by
  have hd := data hlive h0 h
  rcases hd.indexes i x hx with h | h
  · exact fun p hp => hd.keep p (hbefore i x h p hp)
  · exact h

/-- The packs in the repository are the ones the new index describes: same blobs, same order,
same lengths, as long as no two packs of the run (`c.allowed`) have manifests with one hash. -/
theorem index_matches_packs (c : Cfg Id) (w : World Id) (main : List (Op Id)) (s : State Id)
    (hlive : c.live = true) (h0 : StartOk c w main) (hw : WorldOk c w)
    (hinj : ∀ a b, c.allowed a → c.allowed b →
      c.ids.packId (Pack.manifestOf a) = c.ids.packId (Pack.manifestOf b) → a = b)
    (hsort : BMap.Sorted c.start.packs)
    (hstart : ∀ p m, (p, m) ∈ c.start.packs → ∃ bs, Good c p bs ∧ m = Pack.manifestOf bs)
    (hne : ∀ b ∈ sends main, b.data ≠ [])
    (h : Reachable c w main s) (i : Id) (x : Index Id) (hx : (i, x) ∈ s.world.repo.indexes)
    (hnew : (i, x) ∉ w.repo.indexes) (p : Id) (m : Manifest Id) (hp : (p, m) ∈ x.packs) :
    ∃ bs, s.world.repo.packs.get? p = some bs ∧ Pack.manifestOf bs = m := by
  have hk := index_after_packs c w main s hlive h0 h i x hx hnew p (BMap.mem_keys_of_mem hp)
  obtain ⟨bs, hbs⟩ := BMap.mem_keys_iff.mp hk
  refine ⟨bs, hbs, ?_⟩
  obtain ⟨g1, g2⟩ := (named hw h).repo p bs (BMap.mem_of_get? hbs)
  have hf := filed hlive h
  -- the new index is the one the indexer finished
  have hix : s.ix = .exited (some x) := by
    by_cases hex : ∃ y, s.ix = .exited (some y)
    · obtain ⟨y, hy⟩ := hex
      by_cases hb : ∃ j z, s.up = .busy (.index j z)
      · obtain ⟨j, z, hz⟩ := hb
        rw [(hf.busy j z hz).2.2] at hx
        exact absurd hx hnew
      · have hput := hf.put y hy (fun j z hz => hb ⟨j, z, hz⟩)
        rw [hput] at hx
        rcases BMap.mem_insert_of hx with ⟨_, rfl⟩ | hx
        · exact hy
        · exact absurd hx hnew
    · rw [hf.notYet (fun y hy => hex ⟨y, hy⟩)] at hx
      exact absurd hx hnew
  have hgood : ∃ cs, Good c p cs ∧ m = Pack.manifestOf cs := by
    rcases acct hw hsort hne h with hd | ⟨news, ha⟩
    · rw [hix] at hd; cases hd
    · have hmem : (p, m) ∈ idxPacks s.ix := by rw [hix]; exact hp
      rcases List.mem_append.mp (ha.packs.subset hmem) with hm | hm
      · exact hstart p m hm
      · obtain ⟨⟨q, cs⟩, he, heq⟩ := List.mem_map.mp hm
        simp only [Prod.mk.injEq] at heq
        obtain ⟨rfl, rfl⟩ := heq
        exact ⟨cs, ha.good _ he, rfl⟩
  obtain ⟨cs, ⟨c1, c2⟩, rfl⟩ := hgood
  rw [hinj bs cs g2 c2 (g1.symm.trans c1)]

/-- On a dry run the repository is untouched at every instant. -/
theorem dry_run_untouched (c : Cfg Id) (w : World Id) (main : List (Op Id)) (s : State Id)
    (hdry : c.live = false) (h : Reachable c w main s) : s.world.repo = w.repo :=
  (dry hdry h).1

/-! ### Example: a whole run that uploads one pack and its index -/

section Example

/-- IDs for the example: manifests are named by their first blob, the index by a constant. -/
def exIds : Ids Nat := ⟨fun m => (m.map Entry.id).sum, fun _ => 100, fun _ => 200⟩

def exCfg : Cfg Nat := ⟨exIds, true, 4, Index.empty, fun _ => True⟩

def exWorld : World Nat := ⟨⟨[], [], []⟩, ⟨none, [], []⟩⟩

def exBlob : Blob Nat := ⟨[1, 2, 3], 7, .chunk⟩

/-- The run up to the join. -/
theorem exRun : ∃ s, Reachable exCfg exWorld [.send exBlob] s ∧ s.joined = true ∧
    s.world = ⟨⟨[(7, [exBlob])], [(100, ⟨[], [(7, [⟨.chunk, 3, 7⟩])]⟩)], []⟩, ⟨none, [], []⟩⟩ := by
  refine run_step (.spawn _ (by decide) (by decide)) ?_
  refine run_step (.spawn _ (by decide) (by decide)) ?_
  refine run_step (.spawn _ (by decide) (by decide)) ?_
  refine run_step (.spawn _ (by decide) (by decide)) ?_
  refine run_step (.mainSend _ exBlob [] [] rfl (by decide) rfl) ?_
  refine run_step (.close _ rfl rfl) ?_
  refine run_step (.endPack _ .chunk [exBlob] (by decide) rfl (by decide) trivial) ?_
  refine run_step (.packerUp _ .chunk 7 [exBlob] rfl (by decide) rfl) ?_
  refine run_step (.packerIdx _ .chunk 7 [exBlob] Index.empty rfl (by decide) rfl (by decide)) ?_
  refine run_step (.ixPersist _ ⟨[], [(7, [⟨.chunk, 3, 7⟩])]⟩ rfl (by decide)) ?_
  refine run_step (.upStore _ (.pack 7 [exBlob]) rfl rfl) ?_
  refine run_step (.upDrop _ (.pack 7 [exBlob]) rfl) ?_
  refine run_step (.packerExit _ .chunk [] (by decide) rfl rfl (by decide)) ?_
  refine run_step (.packerExit _ .tree [] (by decide) rfl rfl (by decide)) ?_
  refine run_step (.ixClosed _ ⟨[], [(7, [⟨.chunk, 3, 7⟩])]⟩ rfl (by decide) rfl rfl rfl) ?_
  refine run_step (.ixCopy _ ⟨[], [(7, [⟨.chunk, 3, 7⟩])]⟩ rfl) ?_
  refine run_step (.ixUp _ ⟨[], [(7, [⟨.chunk, 3, 7⟩])]⟩ rfl (by decide) rfl) ?_
  refine run_step (.upMove _ (.index 100 ⟨[], [(7, [⟨.chunk, 3, 7⟩])]⟩) rfl rfl) ?_
  refine run_step (.upExit _ rfl (by decide) rfl rfl rfl ⟨_, rfl⟩) ?_
  refine run_step (.join _ rfl rfl rfl rfl rfl ⟨_, rfl⟩ rfl) ?_
  exact ⟨_, .refl, rfl, rfl⟩

example : exCfg.live = true ∧ StartOk exCfg exWorld [.send exBlob] ∧ WorldOk exCfg exWorld ∧
    ∃ s, Reachable exCfg exWorld [.send exBlob] s ∧
      (100, ⟨[], [(7, [⟨.chunk, 3, 7⟩])]⟩) ∈ s.world.repo.indexes := by
  obtain ⟨s, h, _, hw⟩ := exRun
  exact ⟨rfl, fun p hp => by simp [exCfg, Index.empty, BMap.keys] at hp,
    ⟨by simp [exWorld], by simp [exWorld], by simp [exWorld], by simp [exWorld]⟩,
    s, h, by rw [hw]; simp⟩

end Example

end Backpak.C12
