import Verif.Lemmas.Reading
import Verif.Lemmas.Genuine
import Verif.Model.Stat

/-!
# `snapshots --stat`, `snapshots --sizes` and `usage`, reading packs one after another and from damaged ones
-/

namespace Backpak

open Spec Genuine

variable {Id : Type} [LinearOrder Id] {C : Codec Id}

section Reads

variable {ix : Index Id} {bm : BMap Id Id}

theorem loadNeeded_reads (wanted : Id → Bool) (snaps : List (Snap Id)) (cache : Forest Id) :
    Reads (Named bm) Failed (fun f => loadNeeded C ⟨ix, bm, f⟩ wanted snaps cache) := by
  induction snaps generalizing cache with
  | nil => exact .pure _
  | cons s rest ih =>
    by_cases hw : (wanted s.2 || nextWanted wanted rest) = true
    · exact Reads.after (stop := .error) (forestFromRoot_reads (C := C) (ix := ix) s.1.tree cache)
        (k := fun r f => match loadNeeded C ⟨ix, bm, f⟩ wanted rest r.2 with
          | .error e => .error e
          | .ok l => .ok (some r.1 :: l))
        (fun r => Reads.after (stop := .error) (k := fun l _ => .ok (some r.1 :: l)) (ih r.2) (fun _ => .pure _)
          (fun _ => failed_error) (fun f e h => by simp only [h]) (fun f a h => by simp only [h]))
        (fun _ => failed_error) (fun f e h => by simp only [loadNeeded, hw, if_true, h])
        (fun f a h => by simp only [loadNeeded, hw, if_true, h]; rfl)
    · exact Reads.after (stop := .error) (k := fun l _ => .ok (none :: l)) (ih cache) (fun _ => .pure _)
        (fun _ => failed_error) (fun f e h => by simp only [loadNeeded, if_neg hw, h])
        (fun f a h => by simp only [loadNeeded, if_neg hw, h])

theorem showStat_reads (g : Graphemes) (withMeta reverse : Bool) (wanted : Id → Bool) (snaps : List (Snap Id)) :
    Reads (Named bm) Failed (fun f => showStat g C ⟨ix, bm, f⟩ withMeta reverse wanted snaps) :=
  Reads.after (stop := .error) (loadNeeded_reads (C := C) (ix := ix) wanted snaps (newTreeCache C))
    (k := fun fs _ => eachRes (statOne g C withMeta (snaps.zip fs)) (positions wanted reverse snaps)) (fun _ => .pure _)
    (fun _ => failed_error) (fun f e h => by simp only [showStat, h]) (fun f a h => by simp only [showStat, h])

theorem decorate_reads (sm : BMap Id Nat) (snaps : List (Snap Id)) (cache : Forest Id) (v : BSet Id) :
    Reads (Named bm) Failed (fun f => decorate C ⟨ix, bm, f⟩ sm snaps cache v) := by
  induction snaps generalizing cache v with
  | nil => exact .pure _
  | cons s rest ih =>
    refine Reads.after (stop := .error) (forestFromRoot_reads (C := C) (ix := ix) s.1.tree cache)
      (k := fun r f => match forestSizes s.1.tree r.1 sm v with
        | .error e => .error e
        | .ok (v', z) =>
          match decorate C ⟨ix, bm, f⟩ sm rest r.2 v' with
          | .error e => .error e
          | .ok l => .ok ((r.1, z) :: l))
      (fun r => ?_) (fun _ => failed_error) (fun f e h => by simp only [decorate, h])
      (fun f a h => by simp only [decorate, h]; rfl)
    cases forestSizes s.1.tree r.1 sm v with
    | error e => exact .pure _
    | ok q =>
      exact Reads.after (stop := .error) (k := fun l _ => .ok ((r.1, q.2) :: l)) (ih r.2 q.1) (fun _ => .pure _)
        (fun _ => failed_error) (fun f e h => by simp only [h]) (fun f a h => by simp only [h])

theorem showSizes_reads (g : Graphemes) (stat fileSizes withMeta reverse : Bool) (wanted : Id → Bool)
    (snaps : List (Snap Id)) :
    Reads (Named bm) Failed (fun f => showSizes g C ⟨ix, bm, f⟩ stat fileSizes withMeta reverse wanted snaps) := by
  cases hs : Index.blobToSize ix with
  | error e => exact (Reads.pure (.error e)).congr (fun f => by simp only [showSizes, hs])
  | ok sm =>
    exact Reads.after (stop := .error) (decorate_reads (C := C) (ix := ix) sm snaps (newTreeCache C) [])
      (k := fun ds _ => eachRes (sizesOne g C stat fileSizes withMeta (snaps.zip ds)) (positions wanted reverse snaps))
      (fun _ => .pure _) (fun _ => failed_error) (fun f e h => by simp only [showSizes, hs, h])
      (fun f a h => by simp only [showSizes, hs, h])

theorem usageLoop_reads (sm : BMap Id Nat) (snaps : List (Snapshot Id)) (cache : Forest Id) (v : BSet Id) (z : Sizes) :
    Reads (Named bm) Failed (fun f => usageLoop C ⟨ix, bm, f⟩ sm snaps cache v z) := by
  induction snaps generalizing cache v z with
  | nil => exact .pure _
  | cons s rest ih =>
    refine Reads.after (stop := .error) (forestFromRoot_reads (C := C) (ix := ix) s.tree cache)
      (k := fun r f => match forestSizes s.tree r.1 sm v with
        | .error e => .error e
        | .ok (v', z') => usageLoop C ⟨ix, bm, f⟩ sm rest r.2 v' (z.add z'))
      (fun r => ?_) (fun _ => failed_error) (fun f e h => by simp only [usageLoop, h])
      (fun f a h => by simp only [usageLoop, h]; rfl)
    cases forestSizes s.tree r.1 sm v with
    | error e => exact .pure _
    | ok q => exact ih _ _ _

theorem usage_reads (snaps : List (Snapshot Id)) : Reads (Named bm) Failed (fun f => usage C ⟨ix, bm, f⟩ snaps) := by
  cases hs : Index.blobToSize ix with
  | error e => exact (Reads.pure (.error e)).congr (fun f => by simp only [usage, hs])
  | ok sm =>
    exact Reads.after (stop := .error) (usageLoop_reads (C := C) (ix := ix) sm snaps (newTreeCache C) [] {})
      (k := fun r _ => .ok ⟨r.2.introduced, r.2.reused, packedSize ix, packedSize ix - r.2.introduced⟩)
      (fun _ => .pure _) (fun _ => failed_error) (fun f e h => by simp only [usage, hs, h])
      (fun f a h => by simp only [usage, hs, h])

end Reads

section Same

variable {R : Repo Id} {src bad : Source Id}

theorem loadNeeded_same (hl : Local C.decTree) (hN : NoForgery C R bad) (hS : Sound C R) (ho : Opens R src)
    (wanted : Id → Bool) {snaps : List (Snap Id)} (hs : ∀ s ∈ snaps, Readable C R s.1) :
    ∀ {cb cg : Forest Id} {fs : List (Option (Forest Id))}, CacheTrue C R cb → CacheOk C R cg →
      loadNeeded C bad wanted snaps cb = .ok fs → loadNeeded C src wanted snaps cg = .ok fs := by
  induction snaps with
  | nil => intro cb cg fs _ _ h; exact h
  | cons s rest ih =>
    intro cb cg fs hcb hcg h
    unfold loadNeeded at h ⊢
    split at h
    · rename_i hw
      rw [if_pos hw]
      obtain ⟨d, hd⟩ := hs s List.mem_cons_self
      split at h
      · cases h
      · rename_i F c hF
        obtain ⟨c', h1, h2, h3⟩ := forest_same hl hN hS ho hd hcb hcg hF
        rw [h1]
        dsimp only
        split at h
        · cases h
        · rename_i l hl'
          rw [ih (fun x hx => hs x (List.mem_cons_of_mem _ hx)) h2 h3 hl']
          exact h
    · rename_i hw
      rw [if_neg hw]
      split at h
      · cases h
      · rename_i l hl'
        rw [ih (fun x hx => hs x (List.mem_cons_of_mem _ hx)) hcb hcg hl']
        exact h

theorem decorate_same (hl : Local C.decTree) (hN : NoForgery C R bad) (hS : Sound C R) (ho : Opens R src)
    (sm : BMap Id Nat) {snaps : List (Snap Id)} (hs : ∀ s ∈ snaps, Readable C R s.1) :
    ∀ {cb cg : Forest Id} {v : BSet Id} {ds : List (Forest Id × Sizes)}, CacheTrue C R cb → CacheOk C R cg →
      decorate C bad sm snaps cb v = .ok ds → decorate C src sm snaps cg v = .ok ds := by
  induction snaps with
  | nil => intro cb cg v ds _ _ h; exact h
  | cons s rest ih =>
    intro cb cg v ds hcb hcg h
    unfold decorate at h ⊢
    obtain ⟨d, hd⟩ := hs s List.mem_cons_self
    split at h
    · cases h
    · rename_i F c hF
      obtain ⟨c', h1, h2, h3⟩ := forest_same hl hN hS ho hd hcb hcg hF
      rw [h1]
      dsimp only
      split at h
      · cases h
      · rename_i v' z hz
        split at h
        · cases h
        · rename_i l hl'
          rw [ih (fun x hx => hs x (List.mem_cons_of_mem _ hx)) h2 h3 hl']
          exact h

theorem usageLoop_same (hl : Local C.decTree) (hN : NoForgery C R bad) (hS : Sound C R) (ho : Opens R src)
    (sm : BMap Id Nat) {snaps : List (Snapshot Id)} (hs : ∀ s ∈ snaps, Readable C R s) :
    ∀ {cb cg : Forest Id} {v : BSet Id} {z : Sizes} {r : BSet Id × Sizes}, CacheTrue C R cb → CacheOk C R cg →
      usageLoop C bad sm snaps cb v z = .ok r → usageLoop C src sm snaps cg v z = .ok r := by
  induction snaps with
  | nil => intro cb cg v z r _ _ h; exact h
  | cons s rest ih =>
    intro cb cg v z r hcb hcg h
    unfold usageLoop at h ⊢
    obtain ⟨d, hd⟩ := hs s List.mem_cons_self
    split at h
    · cases h
    · rename_i F c hF
      obtain ⟨c', h1, h2, h3⟩ := forest_same hl hN hS ho hd hcb hcg hF
      rw [h1]
      dsimp only
      split at h
      · cases h
      · rename_i v' z' hz
        exact ih (fun x hx => hs x (List.mem_cons_of_mem _ hx)) h2 h3 h

end Same

end Backpak
