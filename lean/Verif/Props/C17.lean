import Verif.Lemmas.Index
import Verif.Spec.Live

/-!
# C17 - The master index is the union of all live indexes
-/

namespace Backpak.C17

open Index Spec

variable {Id : Type} [LinearOrder Id]

/-- All loads succeeding, finishing in this order. -/
def loads (files : List (Id × Index Id)) : List (Id × Res (Index Id)) :=
  files.map (fun e => (e.1, .ok e.2))

theorem build_ok (files : List (Id × Index Id)) (hn : (files.map Prod.fst).Nodup) :
    ∃ r, LoadedOk files r ∧ buildMaster (loads files) = .ok (merge r) := by
  obtain ⟨r, h1, h2⟩ := loadAll_ok files [] _ loadedOk_nil (by simpa using hn)
  exact ⟨r, by simpa using h2, by unfold buildMaster loads; rw [h1]⟩

/-- Building succeeds exactly when every load does and no index is listed twice. -/
theorem succeeds_iff (l : List (Id × Res (Index Id))) :
    (∃ x, buildMaster l = .ok x) ↔ ∃ files, l = loads files ∧ (files.map Prod.fst).Nodup := by
  constructor
  · rintro ⟨x, hx⟩
    unfold buildMaster at hx
    split at hx
    · simp at hx
    · rename_i r hr
      obtain ⟨files, h1, h2⟩ := loadAll_sound l [] _ r loadedOk_nil (by simp) hr
      exact ⟨files, h1, by simpa using h2⟩
  · rintro ⟨files, rfl, hn⟩
    obtain ⟨r, _, h⟩ := build_ok files hn
    exact ⟨_, h⟩

/-- What the master index names as superseded. -/
theorem supersedes_iff (files : List (Id × Index Id)) (x : Index Id)
    (h : buildMaster (loads files) = .ok x) (i : Id) : i ∈ x.supersedes ↔ Superseded files i := by
  obtain ⟨f', h1, hn⟩ := (succeeds_iff _).mp ⟨x, h⟩
  have hf : f' = files := by
    unfold loads at h1
    exact (List.map_injective_iff.mpr (by rintro ⟨a, b⟩ ⟨c, d⟩ h; simpa using h) h1).symm
  subst hf
  obtain ⟨r, hr, hb⟩ := build_ok f' hn
  rw [hb] at h
  cases h
  exact hr.sup i

/-- Every pack the master index lists is listed, with that manifest, by a live index. -/
theorem packs_sound (files : List (Id × Index Id)) (hn : (files.map Prod.fst).Nodup) (x : Index Id)
    (h : buildMaster (loads files) = .ok x) (p : Id) (m : Manifest Id) (hm : (p, m) ∈ x.packs) :
    Listed files p m := by
  obtain ⟨r, hr, hb⟩ := build_ok files hn
  rw [hb] at h
  cases h
  rcases mem_foldl_append _ _ p m hm with h | ⟨⟨i, ps⟩, he, h⟩
  · simp at h
  · rw [mem_eraseAll] at he
    obtain ⟨y, hy, rfl⟩ := (hr.loaded i ps).mp he.2
    exact ⟨i, y, ⟨hy, fun hs => he.1 ((hr.sup i).mpr hs)⟩, h⟩

/-- Every pack a live index lists is in the master index. -/
theorem packs_complete (files : List (Id × Index Id)) (hn : (files.map Prod.fst).Nodup)
    (x : Index Id) (h : buildMaster (loads files) = .ok x) (p : Id) (m : Manifest Id)
    (hl : Listed files p m) : ∃ m', (p, m') ∈ x.packs := by
  obtain ⟨r, hr, hb⟩ := build_ok files hn
  rw [hb] at h
  cases h
  obtain ⟨i, y, ⟨hy, hs⟩, hm⟩ := hl
  have : p ∈ BMap.keys (merge r).packs := by
    unfold merge
    rw [keys_foldl_append]
    refine .inr ⟨(i, y.packs), ?_, BMap.mem_keys_of_mem hm⟩
    rw [mem_eraseAll]
    exact ⟨fun h => hs ((hr.sup i).mp h), (hr.loaded i y.packs).mpr ⟨y, hy, rfl⟩⟩
  obtain ⟨m', hm'⟩ := BMap.mem_keys_iff.mp this
  exact ⟨m', BMap.mem_of_get? hm'⟩

/-- When no two live indexes give one pack different manifests (a pack's ID is the hash of its
manifest), the master index lists exactly what the live indexes list. -/
theorem packs_exact (files : List (Id × Index Id)) (hn : (files.map Prod.fst).Nodup) (x : Index Id)
    (h : buildMaster (loads files) = .ok x)
    (hone : ∀ p m m', Listed files p m → Listed files p m' → m = m') (p : Id) (m : Manifest Id) :
    x.packs.get? p = some m ↔ Listed files p m := by
  constructor
  · intro hg
    exact packs_sound files hn x h p m (BMap.mem_of_get? hg)
  · intro hl
    obtain ⟨m', hm'⟩ := packs_complete files hn x h p m hl
    have : p ∈ BMap.keys x.packs := BMap.mem_keys_of_mem hm'
    obtain ⟨m2, h2⟩ := BMap.mem_keys_iff.mp this
    rw [h2, hone p m2 m (packs_sound files hn x h p m2 (BMap.mem_of_get? h2)) hl]

/-- The result does not depend on the order in which the loads finish. -/
theorem order_irrelevant (files files' : List (Id × Index Id)) (hn : (files.map Prod.fst).Nodup)
    (hp : files.Perm files') : buildMaster (loads files) = buildMaster (loads files') := by
  obtain ⟨r, hr, hb⟩ := build_ok files hn
  obtain ⟨s, hs, hb'⟩ := build_ok files' ((hp.map Prod.fst).nodup_iff.mp hn)
  rw [hb, hb', hr.unique hs (fun e => hp.mem_iff)]

/-- Three indexes, the third replacing the first, finishing in two different orders. -/
example :
    let files : List (Nat × Index Nat) :=
      [(1, ⟨[], [(10, [⟨.chunk, 3, 100⟩])]⟩), (2, ⟨[], [(11, [⟨.tree, 5, 101⟩])]⟩),
        (3, ⟨[1], [(12, [⟨.chunk, 3, 100⟩])]⟩)]
    (files.map Prod.fst).Nodup ∧ Superseded files 1 ∧
    buildMaster (loads files) =
      .ok ⟨[1], [(11, [⟨.tree, 5, 101⟩]), (12, [⟨.chunk, 3, 100⟩])]⟩ ∧
    buildMaster (loads files.reverse) = buildMaster (loads files) := by
  refine ⟨by decide, ⟨3, _, by simp; rfl, by simp⟩, by decide, by decide⟩

end Backpak.C17
