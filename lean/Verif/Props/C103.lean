import Verif.Lemmas.Reused
import Verif.Props.C69

/-!
# C103 - What a backup shows as new and as reused adds up

The progress line of a backup gives the bytes packed and, after `R`, the bytes reused. `backupReused` is
the second number when the walk has ended, and the first is the length of the blobs sent,
`sends plan.main`. `keep a.filter a.pathOf a.fs` is what is walked, `fileBytes` the length of its files
and `TreeBytes` that of the trees below a tree, each as often as it occurs. Empty trees are not stored.
-/

namespace Backpak.C103

open Spec Pipeline

variable {Id : Type} [LinearOrder Id] {C : Codec Id} {cut : Bytes → Nat} {ids : Ids Id} {cores : Nat}
  {src : Source Id} {snaps : List (Snap Id)} {a : BackupArgs} {plan : Plan Id}

/-- The bytes of a list of blobs. -/
def bytesOf (l : List (Blob Id)) : Nat := (l.map (·.data.length)).sum

theorem sends_ups (l : List Id) (m : List (Blob Id)) (d : Bool) :
    sends ((if d then [] else l.map Op.up) ++ m.map Op.send) = m := by
  have h1 : sends (l.map (Op.up : Id → Op Id)) = [] := by
    unfold sends
    rw [List.filterMap_map, List.filterMap_eq_nil_iff]
    intro x _; rfl
  have h2 : sends (m.map Op.send) = m := by
    unfold sends
    rw [List.filterMap_map]
    exact List.filterMap_some
  have h3 : ∀ x y : List (Op Id), sends (x ++ y) = sends x ++ sends y := fun x y => List.filterMap_append ..
  rw [h3, h2]
  cases d
  · simpa using h1
  · rfl

/-- Behind the two numbers. -/
theorem behind (w : World Id) (hp : backupPlan C cut w src snaps a = .ok plan) :
    ∃ (F : Forest Id) (prevRoot : Option Id) (packed : List Id) (root : Id) (c : WalkCounts Id),
      backupCounted C cut a.filter F a.pathOf prevRoot a.fs ⟨⟨packed, []⟩, 0⟩ = .ok (root, c) ∧
      backupReused C cut w src snaps a = .ok (root, c.reused) ∧ sends plan.main = c.sends.sent ∧
      plan.post = backupPost C a snaps plan.start (sends plan.main) root := by
  unfold backupPlan at hp
  unfold backupReused
  simp only at hp ⊢
  split at hp
  · cases hp
  · rename_i F hF
    split at hp
    · cases hp
    · rename_i known hk
      split at hp
      · cases hp
      · rename_i start here hr
        have h := counted_sends (C := C) (cut := cut) (filter := a.filter) (F := F) a.fs a.pathOf
          ((parentSnapshot a.paths snaps).map (·.tree)) ⟨⟨BMap.keys known ++ listedIds start, []⟩, 0⟩
        simp only at h
        rw [h] at hp
        cases hb : backupCounted C cut a.filter F a.pathOf ((parentSnapshot a.paths snaps).map (·.tree)) a.fs
            ⟨⟨BMap.keys known ++ listedIds start, []⟩, 0⟩ with
        | error e => rw [hb] at hp; cases hp
        | ok r =>
          rw [hb] at hp
          simp only [Except.map, Except.ok.injEq] at hp
          subst hp
          refine ⟨F, _, _, r.1, r.2, hb, ?_, ?_, ?_⟩
          · rw [hF, hk, hr]
            simp only [hb, Except.map]
          · exact sends_ups _ _ _
          · simp only [sends_ups]

/-- There is a count whenever the walk succeeds, and the tree it arrives at is the one the snapshot is
given. -/
theorem counts (w : World Id) (hp : backupPlan C cut w src snaps a = .ok plan) :
    ∃ root r, backupReused C cut w src snaps a = .ok (root, r) ∧
      plan.post = backupPost C a snaps plan.start (sends plan.main) root := by
  obtain ⟨F, pr, packed, root, c, _, h2, _, h4⟩ := behind w hp
  exact ⟨root, _, h2, h4⟩

/-- If the walk fails, it fails. -/
theorem fails (w : World Id) (e : Fail) (hp : backupPlan C cut w src snaps a = .error e) :
    backupReused C cut w src snaps a = .error e := by
  unfold backupPlan at hp
  unfold backupReused
  simp only at hp ⊢
  split at hp
  · rename_i hF; cases hp; rw [hF]
  · rename_i F hF
    rw [hF]
    split at hp
    · rename_i hk; cases hp; simp only [hk]
    · rename_i known hk
      split at hp
      · rename_i hr; cases hp; simp only [hk, hr]
      · rename_i start here hr
        have h := counted_sends (C := C) (cut := cut) (filter := a.filter) (F := F) a.fs a.pathOf
          ((parentSnapshot a.paths snaps).map (·.tree)) ⟨⟨BMap.keys known ++ listedIds start, []⟩, 0⟩
        simp only at h
        rw [h] at hp
        simp only [hk, hr]
        cases hb : backupCounted C cut a.filter F a.pathOf ((parentSnapshot a.paths snaps).map (·.tree)) a.fs
            ⟨⟨BMap.keys known ++ listedIds start, []⟩, 0⟩ with
        | error e' => rw [hb] at hp; cases hp; rfl
        | ok r => rw [hb] at hp; cases hp

/-- The bytes sent and the bytes reused are together the bytes of the files walked and of their trees,
the one for what is backed up included. -/
theorem adds_up (w : World Id) (hc : Chunk.Contract cut) (hz : SizesRight (keep a.filter a.pathOf a.fs))
    (hp : backupPlan C cut w src snaps a = .ok plan) (root : Id) (r : Nat)
    (hr : backupReused C cut w src snaps a = .ok (root, r)) :
    ∃ t k, HashedAs C root t ∧ TreeBytes (storedLength C) (HashedAs C) t k ∧
      bytesOf (sends plan.main) + r =
        fileBytes (keep a.filter a.pathOf a.fs) + (k + storedLength C root t) := by
  obtain ⟨F, pr, packed, root', c, h1, h2, h3, _⟩ := behind w hp
  rw [h2] at hr
  cases hr
  unfold backupCounted walkTop at h1
  split at h1
  · cases h1
  · rename_i t s1 hw
    obtain ⟨k, g1, g2⟩ := walk_counts hc a.fs _ _ _ _ _ _ 0 hz .nil hw
    obtain ⟨e1, e2, _⟩ := count_final _ h1
    refine ⟨t, 0 + k, e1, g1, ?_⟩
    have : c.total = bytesOf (sends plan.main) + c.reused := by rw [h3]; rfl
    rw [← this, e2, g2]
    simp only [WalkCounts.total, List.map_nil, List.sum_nil]
    omega

/-- Backing up what the parent holds reuses everything. -/
theorem all_reused (w : World Id) (hB : BackupOk C cut ids w src snaps a)
    (hz : SizesRight (keep a.filter a.pathOf a.fs))
    (hp : backupPlan C cut w src snaps a = .ok plan) (p : Snapshot Id)
    (hpar : parentSnapshot a.paths snaps = some p)
    (hsame : Holds C w.repo p.tree (arrange (keep a.filter a.pathOf a.fs))) (root : Id) (r : Nat)
    (hr : backupReused C cut w src snaps a = .ok (root, r)) :
    ∃ t k, HashedAs C root t ∧ TreeBytes (storedLength C) (HashedAs C) t k ∧
      r = fileBytes (keep a.filter a.pathOf a.fs) + (k + storedLength C root t) := by
  obtain ⟨t, k, h1, h2, h3⟩ := adds_up w hB.chunker hz hp root r hr
  rw [(C69.unchanged_sends_nothing w hB hp p hpar hsame).1] at h3
  exact ⟨t, k, h1, h2, by simpa [bytesOf] using h3⟩

/-- Where the tree arrived at is the empty one, nothing was sent and nothing reused, so that the
assertion that nothing was reused holds; otherwise a tree with entries has the empty one's ID. -/
theorem nothing (w : World Id) (hp : backupPlan C cut w src snaps a = .ok plan) (r : Nat)
    (hr : backupReused C cut w src snaps a = .ok (C.emptyId, r)) :
    (sends plan.main = [] ∧ r = 0) ∨ ∃ t, t ≠ [] ∧ HashedAs C C.emptyId t := by
  obtain ⟨F, pr, packed, root', c, h1, h2, h3, _⟩ := behind w hp
  rw [h2] at hr
  simp only [Except.ok.injEq, Prod.mk.injEq] at hr
  obtain ⟨rfl, rfl⟩ := hr
  unfold backupCounted walkTop at h1
  split at h1
  · cases h1
  · rename_i t s1 hw
    obtain ⟨e1, _, e3⟩ := count_final _ h1
    by_cases ht : t = []
    · obtain ⟨_, rfl⟩ := walk_ne a.fs _ _ _ _ _ _ hw ht
      rw [h3, e3 ht]
      exact .inl ⟨rfl, rfl⟩
    · exact .inr ⟨t, ht, e1⟩

theorem sizes0 : SizesRight (keep Demo.args0.filter Demo.args0.pathOf Demo.args0.fs) := by
  have h : keep Demo.args0.filter Demo.args0.pathOf Demo.args0.fs =
      .leaf [97] (Demo.fileMd 3 5) (.file [1, 2, 3]) (.leaf [98] (Demo.fileMd 3 6) (.file [1, 2, 3])
        (.dir [115] Demo.dirMd (.leaf [99] (Demo.fileMd 1 7) (.file [4]) (.dir [101] Demo.dirMd .nil .nil)) .nil)) := by
    decide +kernel
  rw [h]
  exact ⟨rfl, rfl, ⟨rfl, trivial, trivial⟩, trivial⟩

/-- A backup all of which is skipped. -/
def argsNone : BackupArgs := { Demo.args0 with filter := fun _ => false }

/-- A first backup of two equal files, another file and an empty directory: the second of the equal files
is reused. -/
example : ∃ root, backupReused Demo.codec Demo.cut Demo.world0 Demo.src0 [] Demo.args0 = .ok (root, 3) ∧
    fileBytes (keep Demo.args0.filter Demo.args0.pathOf Demo.args0.fs) = 7 ∧
    ∃ t k, HashedAs Demo.codec root t ∧ TreeBytes (storedLength Demo.codec) (HashedAs Demo.codec) t k ∧
      bytesOf (sends Demo.plan0.main) + 3 = 7 + (k + storedLength Demo.codec root t) := by
  obtain ⟨root, r, h, _⟩ := counts Demo.world0 Demo.plan0_eq
  have hr : (match backupReused Demo.codec Demo.cut Demo.world0 Demo.src0 [] Demo.args0 with
      | .ok x => x.2 | .error _ => 0) = 3 := by decide +kernel
  rw [h] at hr
  simp only at hr
  subst hr
  refine ⟨root, h, by decide +kernel, ?_⟩
  have := adds_up Demo.world0 Demo.cut_contract ?_ Demo.plan0_eq root 3 h
  · rwa [show fileBytes (keep Demo.args0.filter Demo.args0.pathOf Demo.args0.fs) = 7 by decide +kernel] at this
  · exact sizes0

/-- Backing it up again: everything is reused, which is not nothing. -/
example : ∃ root, backupReused Demo.codec Demo.cut (Demo.clean Demo.repoA) (Check.opened Demo.repoA)
      (Demo.snapsOf Demo.repoA) C69.argsA = .ok (root, 105) ∧
    ∃ t k, HashedAs Demo.codec root t ∧ TreeBytes (storedLength Demo.codec) (HashedAs Demo.codec) t k ∧
      105 = fileBytes (keep C69.argsA.filter C69.argsA.pathOf C69.argsA.fs) + (k + storedLength Demo.codec root t) := by
  obtain ⟨root, r, h, _⟩ := counts (Demo.clean Demo.repoA) C69.planSame_eq
  have hr : (match backupReused Demo.codec Demo.cut (Demo.clean Demo.repoA) (Check.opened Demo.repoA)
      (Demo.snapsOf Demo.repoA) C69.argsA with | .ok x => x.2 | .error _ => 0) = 105 := by decide +kernel
  rw [h] at hr
  simp only at hr
  subst hr
  exact ⟨root, h, all_reused (Demo.clean Demo.repoA) (C69.okA _ (Demo.leftover_clean Demo.healthyA))
    ⟨rfl, trivial⟩ C69.planSame_eq Demo.snapA C69.parentA C69.holdsA root 105 h⟩

/-- A backup of nothing but what is skipped. -/
example : ∃ p, backupPlan Demo.codec Demo.cut Demo.world0 Demo.src0 [] argsNone = .ok p ∧
    backupReused Demo.codec Demo.cut Demo.world0 Demo.src0 [] argsNone = .ok (Demo.codec.emptyId, 0) ∧
    sends p.main = [] := by
  have hp := Demo.planOf_eq (r := backupPlan Demo.codec Demo.cut Demo.world0 Demo.src0 [] argsNone) (by decide +kernel)
  exact ⟨_, hp, by rfl, by rfl⟩

end Backpak.C103
