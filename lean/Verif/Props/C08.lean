import Verif.Model.Packer
import Verif.Model.Pack

/-!
# C08 - Packing loses, duplicates and reorders nothing
-/

namespace Backpak.C08

open Packer

variable {Id : Type}

/-- Total bytes of some blobs. -/
def total (bs : List (Blob Id)) : Nat := (bs.map fun b => b.data.length).sum

theorem total_append (a b : List (Blob Id)) : total (a ++ b) = total a + total b := by
  simp [total]

theorem length_le_total {b : Blob Id} {bs : List (Blob Id)} (h : b ∈ bs) :
    b.data.length ≤ total bs := by
  induction bs with
  | nil => simp at h
  | cons c bs ih =>
    rcases List.mem_cons.mp h with rfl | h
    · simp [total]
    · have := ih h
      simp only [total, List.map_cons, List.sum_cons] at this ⊢
      omega

theorem run_partition (target : Nat) (est : Nat → Nat → Nat → Nat) (l : List (Step Id)) :
    ∀ (st : State Id) (evs : List (Event Id)), st.inPack = total st.cur →
      run target est st l = .ok evs →
      (∃ tail, st.cur ++ l.map Step.blob = (packs st.cur evs).flatten ++ tail ∧
        ∀ b ∈ tail, b.data = []) ∧ (∀ p ∈ packs st.cur evs, p ≠ []) := by
  induction l with
  | nil =>
    intro st evs hin h
    simp only [run, Except.ok.injEq] at h
    subst h
    split
    · rename_i hpos
      refine ⟨⟨[], by simp [packs], by simp⟩, ?_⟩
      intro p hp
      simp only [packs, List.mem_cons, List.not_mem_nil, or_false] at hp
      subst hp
      intro he
      rw [he] at hin
      simp [total] at hin
      omega
    · rename_i hz
      refine ⟨⟨st.cur, by simp [packs], ?_⟩, by simp [packs]⟩
      intro b hb
      have h0 : total st.cur = 0 := by omega
      exact List.eq_nil_of_length_eq_zero (Nat.le_zero.mp (h0 ▸ length_le_total hb))
  | cons s l ih =>
    intro st evs hin h
    simp only [run] at h
    split at h
    · simp at h
    · rename_i st' ev hiter
      split at h
      · simp at h
      · rename_i evs' hrun
        simp only [Except.ok.injEq] at h
        subst h
        unfold iter at hiter
        split at hiter
        · simp at hiter
        · simp only at hiter
          have ended : ∀ x y : Event Id, (x = .sized s.size) → (y = .flushed s.flushed) →
              st' = init target → ev = [.wrote s.blob, x, y, .ended] →
              (∃ tail, st.cur ++ (s :: l).map Step.blob = (packs st.cur (ev ++ evs')).flatten ++ tail ∧
                ∀ b ∈ tail, b.data = []) ∧ (∀ p ∈ packs st.cur (ev ++ evs'), p ≠ []) := by
            intro x y hx hy h1 h2
            subst hx hy h1 h2
            obtain ⟨⟨tail, ht, hte⟩, hne⟩ := ih (init target) evs' (by simp [init, total]) hrun
            have hp : packs st.cur ([.wrote s.blob, .sized s.size, .flushed s.flushed, .ended] ++ evs')
                = (st.cur ++ [s.blob]) :: packs [] evs' := rfl
            rw [hp]
            refine ⟨⟨tail, ?_, hte⟩, ?_⟩
            · simp only [init, List.nil_append] at ht
              simp [ht]
            · intro p hp
              rcases List.mem_cons.mp hp with rfl | hp
              · simp
              · exact hne p hp
          have goes : ∀ (st2 : State Id), st' = st2 → st2.cur = st.cur ++ [s.blob] →
              st2.inPack = st.inPack + s.blob.data.length →
              packs st.cur (ev ++ evs') = packs st2.cur evs' →
              (∃ tail, st.cur ++ (s :: l).map Step.blob = (packs st.cur (ev ++ evs')).flatten ++ tail ∧
                ∀ b ∈ tail, b.data = []) ∧ (∀ p ∈ packs st.cur (ev ++ evs'), p ≠ []) := by
            intro st2 h1 h2 h3 h4
            subst h1
            have hin' : st'.inPack = total st'.cur := by
              rw [h2, h3, total_append, hin]; simp [total]
            obtain ⟨⟨tail, ht, hte⟩, hne⟩ := ih st' evs' hin' hrun
            rw [h4]
            refine ⟨⟨tail, ?_, hte⟩, hne⟩
            rw [← ht, h2]; simp
          split at hiter
          · simp only [Except.ok.injEq, Prod.mk.injEq] at hiter
            exact ended _ _ rfl rfl hiter.1.symm hiter.2.symm
          · split at hiter
            · split at hiter
              · simp only [Except.ok.injEq, Prod.mk.injEq] at hiter
                exact ended _ _ rfl rfl hiter.1.symm hiter.2.symm
              · simp only [Except.ok.injEq, Prod.mk.injEq] at hiter
                obtain ⟨rfl, rfl⟩ := hiter
                exact goes _ rfl rfl rfl rfl
            · simp only [Except.ok.injEq, Prod.mk.injEq] at hiter
              obtain ⟨rfl, rfl⟩ := hiter
              exact goes _ rfl rfl rfl rfl

/-- The packs a packer finalises, joined in order, are exactly the blobs it was given; no pack
is empty. (Blobs are never empty: chunks are cut non-empty and a serialised tree has at least
one byte.) This holds for every pack size target, every estimate and whatever sizes the
compressor reports. -/
theorem packs_partition (target : Nat) (est : Nat → Nat → Nat → Nat) (l : List (Step Id))
    (evs : List (Event Id)) (hne : ∀ s ∈ l, s.blob.data ≠ [])
    (h : run target est (init target) l = .ok evs) :
    (packs [] evs).flatten = l.map Step.blob ∧ ∀ p ∈ packs [] evs, p ≠ [] := by
  obtain ⟨⟨tail, ht, hte⟩, hp⟩ := run_partition target est l (init target) evs (by simp [init, total]) h
  refine ⟨?_, hp⟩
  have : tail = [] := by
    cases tail with
    | nil => rfl
    | cons b tail =>
      have hb : b ∈ l.map Step.blob := by
        simp only [init, List.nil_append] at ht
        rw [ht]; simp
      obtain ⟨s, hs, rfl⟩ := List.mem_map.mp hb
      exact absurd (hte _ (by simp)) (hne s hs)
  subst this
  simpa [init] using ht.symm

/-- Without the assumption that blobs are non-empty, all that can be lost is a run of empty
blobs at the very end. -/
theorem packs_partition_any (target : Nat) (est : Nat → Nat → Nat → Nat) (l : List (Step Id))
    (evs : List (Event Id)) (h : run target est (init target) l = .ok evs) :
    ∃ tail, l.map Step.blob = (packs [] evs).flatten ++ tail ∧ ∀ b ∈ tail, b.data = [] := by
  obtain ⟨⟨tail, ht, hte⟩, _⟩ := run_partition target est l (init target) evs (by simp [init, total]) h
  exact ⟨tail, by simpa [init] using ht, hte⟩

/-- A packer fails only on a blob of 4 GiB or more. -/
theorem run_succeeds (target : Nat) (est : Nat → Nat → Nat → Nat) (l : List (Step Id)) :
    ∀ (st : State Id), (∀ s ∈ l, s.blob.data.length < 2 ^ 32) →
      ∃ evs, run target est st l = .ok evs := by
  induction l with
  | nil => intro st _; exact ⟨_, rfl⟩
  | cons s l ih =>
    intro st h
    have : ∃ p, iter target est st s = .ok p := by
      unfold iter
      rw [if_neg (by have := h s (by simp); omega)]
      simp only
      split
      · exact ⟨_, rfl⟩
      · split
        · split
          · exact ⟨_, rfl⟩
          · exact ⟨_, rfl⟩
        · exact ⟨_, rfl⟩
    obtain ⟨⟨st', ev⟩, hp⟩ := this
    obtain ⟨evs, he⟩ := ih st' (fun s hs => h s (List.mem_cons_of_mem _ hs))
    exact ⟨ev ++ evs, by simp [run, hp, he]⟩

/-- The manifests listed for the finalised packs, put together, list every blob's kind, size
and ID, once and in order. -/
theorem manifests_partition (target : Nat) (est : Nat → Nat → Nat → Nat) (l : List (Step Id))
    (evs : List (Event Id)) (hne : ∀ s ∈ l, s.blob.data ≠ [])
    (h : run target est (init target) l = .ok evs) :
    ((packs [] evs).map Pack.manifestOf).flatten
      = l.map fun s => ⟨s.blob.kind, s.blob.data.length, s.blob.id⟩ := by
  have h1 := (packs_partition target est l evs hne h).1
  have : ((packs [] evs).map Pack.manifestOf).flatten = Pack.manifestOf (packs [] evs).flatten := by
    unfold Pack.manifestOf
    rw [List.map_flatten]
  rw [this, h1]
  simp [Pack.manifestOf, Pack.entryOf, Function.comp_def]

/-- Five blobs, a target of 10 bytes and a compressor halving everything: two packs. -/
def sample : List (Step Nat) :=
  [⟨⟨[1, 1, 1, 1, 1, 1, 1, 1], 1, .chunk⟩, 0, 4⟩, ⟨⟨[2, 2, 2, 2], 2, .chunk⟩, 0, 6⟩,
   ⟨⟨[3, 3, 3, 3, 3, 3, 3, 3, 3], 3, .chunk⟩, 4, 11⟩, ⟨⟨[4, 4], 4, .chunk⟩, 0, 1⟩,
   ⟨⟨[5], 5, .chunk⟩, 12, 2⟩]

example : (∀ s ∈ sample, s.blob.data ≠ [] ∧ s.blob.data.length < 2 ^ 32) ∧
    ((run 10 (fun i c t => i * (t - c) / c) (init 10) sample).toOption.map
      fun evs => (packs [] evs).map fun p => p.map Blob.id) = some [[1, 2, 3], [4, 5]] := by
  decide +kernel

/-- The loss `packs_partition_any` allows does happen: a lone empty blob is dropped. -/
example : (run (Id := Nat) 10 (fun _ _ _ => 0) (init 10) [⟨⟨[], 1, .chunk⟩, 0, 0⟩]).toOption.map
    (fun evs => (packs [] evs).length) = some 0 := by
  decide +kernel

end Backpak.C08
