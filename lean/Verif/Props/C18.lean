import Verif.Lemmas.Index
import Verif.Spec.Live

/-!
# C18 - Blob lookup is exact or refuses
-/

namespace Backpak.C18

open Index Spec

variable {Id : Type} [LinearOrder Id]

theorem table_ok_iff {V : Type} (f : Id → Entry Id → V) (ps : BMap Id (Manifest Id)) :
    (∃ t, table f ps [] = .ok t) ↔ (blobsListed ps).Nodup := by
  obtain ⟨h1, h2⟩ := table_iff f ps [] (by simp)
  constructor
  · rintro ⟨t, ht⟩
    exact (h1 t ht).1
  · intro hn
    exact h2 hn (by simp [BMap.keys])

theorem table_get {V : Type} (f : Id → Entry Id → V) (ps : BMap Id (Manifest Id)) (t : BMap Id V)
    (ht : table f ps [] = .ok t) (b : Id) (v : V) :
    t.get? b = some v ↔ ∃ p m e, (p, m) ∈ ps ∧ e ∈ m ∧ e.id = b ∧ f p e = v := by
  obtain ⟨_, _, h3, h4⟩ := (table_iff f ps [] (by simp)).1 t ht
  rw [BMap.get?_eq_some_iff h3, h4]
  simp

/-- Each of the three lookup tables is built exactly when no blob is listed twice. -/
theorem refused_iff (x : Index Id) :
    ((∃ t, blobToPack x = .ok t) ↔ (blobsListed x.packs).Nodup) ∧
    ((∃ t, blobIds x = .ok t) ↔ (blobsListed x.packs).Nodup) ∧
    ((∃ t, blobToSize x = .ok t) ↔ (blobsListed x.packs).Nodup) :=
  ⟨table_ok_iff _ _, table_ok_iff _ _, table_ok_iff _ _⟩

/-- Looking up a blob finds pack `p` exactly when `p`'s manifest lists the blob. -/
theorem lookup_iff (x : Index Id) (t : BMap Id Id) (ht : blobToPack x = .ok t) (b p : Id) :
    t.get? b = some p ↔ ∃ m e, (p, m) ∈ x.packs ∧ e ∈ m ∧ e.id = b := by
  rw [table_get _ _ _ ht]
  constructor
  · rintro ⟨p', m, e, h1, h2, h3, rfl⟩
    exact ⟨m, e, h1, h2, h3⟩
  · rintro ⟨m, e, h1, h2, h3⟩
    exact ⟨p, m, e, h1, h2, h3, rfl⟩

/-- A blob has size `n` in the size table exactly when some manifest lists it with length `n`. -/
theorem size_iff (x : Index Id) (t : BMap Id Nat) (ht : blobToSize x = .ok t) (b : Id) (n : Nat) :
    t.get? b = some n ↔ ∃ p m e, (p, m) ∈ x.packs ∧ e ∈ m ∧ e.id = b ∧ e.length = n :=
  table_get _ _ _ ht b n

/-- The ID set holds exactly the listed blobs. -/
theorem ids_iff (x : Index Id) (t : BMap Id Unit) (ht : blobIds x = .ok t) (b : Id) :
    (t.get? b).isSome ↔ b ∈ blobsListed x.packs := by
  rw [Option.isSome_iff_exists]
  constructor
  · rintro ⟨v, hv⟩
    obtain ⟨p, m, e, h1, h2, h3, _⟩ := (table_get _ _ _ ht b v).mp hv
    exact List.mem_flatMap.mpr ⟨(p, m), h1, List.mem_map.mpr ⟨e, h2, h3⟩⟩
  · intro h
    obtain ⟨⟨p, m⟩, h1, h2⟩ := List.mem_flatMap.mp h
    obtain ⟨e, h3, h4⟩ := List.mem_map.mp h2
    exact ⟨(), (table_get _ _ _ ht b ()).mpr ⟨p, m, e, h1, h3, h4, rfl⟩⟩

/-- Two packs, three blobs: all three tables exist. -/
example : blobToPack (Id := Nat) ⟨[], [(1, [⟨.chunk, 3, 10⟩, ⟨.chunk, 4, 11⟩]), (2, [⟨.tree, 5, 12⟩])]⟩ =
    .ok [(10, 1), (11, 1), (12, 2)] := by decide

/-- One blob in two packs is refused. -/
example : blobToPack (Id := Nat) ⟨[], [(1, [⟨.chunk, 3, 10⟩]), (2, [⟨.chunk, 3, 10⟩])]⟩ =
    .error (.err "Duplicate blob") := by decide

end Backpak.C18
