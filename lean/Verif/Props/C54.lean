import Verif.Props.C38

/-!
# C54 - Metadata comparison misses nothing
-/

namespace Backpak.C54

open Spec

/-- There is no letter exactly for equal metadata. -/
theorem absent_iff (l r : Meta) : metaDiff? l r = none ↔ l = r := by
  unfold metaDiff?
  split
  · simp [*]
  · simp [*]

/-- What the letters say about metadata from Unix: `O` for another owner or group; `P` if those are
the same and the mode is another; `T` if those are the same and the modification time is another; `A`
if those are the same and the access time is another; `M` if only the size is another. -/
theorem letters (l r : PosixMeta) :
    (metaDiff? (.posix l) (.posix r) = some 'O' ↔ (l.uid, l.gid) ≠ (r.uid, r.gid)) ∧
    (metaDiff? (.posix l) (.posix r) = some 'P' ↔ (l.uid, l.gid) = (r.uid, r.gid) ∧ l.mode ≠ r.mode) ∧
    (metaDiff? (.posix l) (.posix r) = some 'T' ↔
      (l.uid, l.gid, l.mode) = (r.uid, r.gid, r.mode) ∧ l.mtime ≠ r.mtime) ∧
    (metaDiff? (.posix l) (.posix r) = some 'A' ↔
      (l.uid, l.gid, l.mode, l.mtime) = (r.uid, r.gid, r.mode, r.mtime) ∧ l.atime ≠ r.atime) ∧
    (metaDiff? (.posix l) (.posix r) = some 'M' ↔
      (l.uid, l.gid, l.mode, l.mtime, l.atime) = (r.uid, r.gid, r.mode, r.mtime, r.atime) ∧ l.size ≠ r.size) := by
  obtain ⟨m1, s1, u1, g1, a1, t1⟩ := l
  obtain ⟨m2, s2, u2, g2, a2, t2⟩ := r
  by_cases hu : u1 = u2 <;> by_cases hg : g1 = g2 <;> by_cases hm : m1 = m2 <;> by_cases ht : t1 = t2 <;>
    by_cases ha : a1 = a2 <;> by_cases hs : s1 = s2 <;>
    simp [metaDiff?, metaDiffChar, hu, hg, hm, ht, ha, hs]

/-- Metadata of another system always differs, and is reported with `M`. -/
theorem across (l : PosixMeta) (r : WindowsMeta) :
    metaDiff? (.posix l) (.windows r) = some 'M' ∧ metaDiff? (.windows r) (.posix l) = some 'M' := by
  simp [metaDiff?, metaDiffChar]

variable {Id : Type} [LinearOrder Id] {C : Codec Id} {ids : Ids Id} {R : Repo Id} {src : Source Id}

/-- Comparing snapshots with `--metadata`: every path whose metadata differs is printed. If it is a
directory in both or the same symlink in both, it is printed with its letter, and with that letter
only if the metadata differs. -/
theorem reported (hH : Healthy C ids R) (ho : Opens R src) {s1 s2 : Snapshot Id} {d1 d2 : Dir Bytes}
    (hd1 : Holds C R s1.tree d1) (hd2 : Holds C R s2.tree d2) (hk1 : d1.KindsOk) (hk2 : d2.KindsOk) :
    ∃ L, diffSnapshots C src true s1 s2 = .ok L ∧
      (∀ p md1 md2 l1 l2, entry d1 p = some (md1, l1) → entry d2 p = some (md2, l2) → md1 ≠ md2 →
        ∃ sg x, (sg, p, x) ∈ L) ∧
      (∀ p md1 md2 l, (∀ x, l ≠ some (.file x)) → entry d1 p = some (md1, l) → entry d2 p = some (md2, l) →
        ∀ c, (∃ x, (.md c, p, x) ∈ L) ↔ metaDiff? md1 md2 = some c) := by
  obtain ⟨F1, cache, g1, l1, hc⟩ := load_from hH.sound ho hd1 newTreeCache_ok
  obtain ⟨F2, cache', g2, l2, _⟩ := load_from hH.sound ho hd2 hc
  obtain ⟨L, h1, h2, h3⟩ := C38.exactly (m := true) (C38.comparable hH l1 l2 hd1 hd2 hk1 hk2)
  refine ⟨L, by simp only [diffSnapshots, g1, g2, h1], ?_, ?_⟩
  · intro p md1 md2 e1 e2 he1 he2 hne
    rcases l1.entry_rel p with ⟨a1, a2⟩ | ⟨⟨c, md⟩, e, a1, a2, a3⟩
    · rw [he1] at a2; cases a2
    · rcases l2.entry_rel p with ⟨b1, b2⟩ | ⟨⟨c', md'⟩, e', b1, b2, b3⟩
      · rw [he2] at b2; cases b2
      · rw [he1] at a2; rw [he2] at b2
        cases a2; cases b2
        have hmd : md ≠ md' := by
          rcases c <;> rcases e1 with _ | _ | _ | _ <;> first | exact a3.elim | skip
          all_goals rcases c' <;> rcases e2 with _ | _ | _ | _ <;> first | exact b3.elim | skip
          all_goals simp only [NodeIs] at a3 b3
          all_goals first | (rw [a3.1, b3.1]; exact hne) | (rw [a3, b3]; exact hne) | (rw [a3.1, b3]; exact hne) | (rw [a3, b3.1]; exact hne)
        by_cases hr : Replaced (⟨c, md⟩ : Node Id) ⟨c', md'⟩
        · refine ⟨.plus, ⟨c', md'⟩, (h3 _ _ _).mpr ⟨b1, fun x hx => ?_⟩⟩
          rw [a1] at hx; cases hx; exact hr
        · by_cases hcc : c = c'
          · subst hcc
            exact ⟨.md _, ⟨c, md'⟩, (h3 _ _ _).mpr ⟨rfl, b1, _, a1, hmd, rfl, .inl rfl⟩⟩
          · rcases c with cs | sub | tgt <;> rcases c' with cs' | sub' | tgt' <;>
              first
              | exact absurd (.inr ⟨rfl, hcc⟩) hr
              | exact ⟨.changed, _, (h3 _ _ _).mpr ⟨a1, _, b1, rfl, rfl, hcc⟩⟩
              | exact ⟨.md _, _, (h3 _ _ _).mpr ⟨rfl, b1, _, a1, hmd, rfl, .inr ⟨rfl, rfl⟩⟩⟩
              | exact absurd (.inl (by simp [Contents.kind])) hr
  · intro p md1 md2 l hl he1 he2 ch
    rcases l1.entry_rel p with ⟨a1, a2⟩ | ⟨⟨c, md⟩, e, a1, a2, a3⟩
    · rw [he1] at a2; cases a2
    · rcases l2.entry_rel p with ⟨b1, b2⟩ | ⟨⟨c', md'⟩, e', b1, b2, b3⟩
      · rw [he2] at b2; cases b2
      · rw [he1] at a2; rw [he2] at b2
        cases a2; cases b2
        have hsame : md = md1 ∧ md' = md2 ∧
            (c = c' ∨ (c.kind = .dir ∧ c'.kind = .dir)) := by
          rcases c <;> rcases l with _ | _ | _ | _ <;> first | exact a3.elim | exact absurd rfl (hl _) | skip
          all_goals rcases c' <;> first | exact b3.elim | skip
          all_goals simp only [NodeIs] at a3 b3
          all_goals simp_all [Contents.kind]
        obtain ⟨rfl, rfl, hs⟩ := hsame
        simp only [h3, Reports, a1, b1, metaDiff?]
        constructor
        · rintro ⟨x, _, hx, y, hy, hne, rfl, _⟩
          cases hx; cases hy
          rw [if_neg hne]
        · intro h
          split at h
          · cases h
          · rename_i hne
            cases h
            exact ⟨_, trivial, rfl, _, rfl, hne, rfl, hs⟩

/-! ## Examples -/

/-- A directory whose modification time changed, and a file whose access time did. -/
def treeM (t a : Int) : Tree ObjectId :=
  [([97], ⟨.file [Demo.chunkA.id], .posix ⟨0o100644, some 3, 0, 0, a, 5⟩⟩),
   ([100], ⟨.dir Demo.treeB.id, .posix ⟨0o040755, none, 0, 0, 0, t⟩⟩)]

def snapM (t a : Int) : Snapshot ObjectId := Demo.snapOf (Demo.treeBlob (treeM t a)) 1

def repoM : Repo ObjectId :=
  Demo.repoOf Demo.pruneIds [[Demo.chunkA, Demo.chunkB], [Demo.treeB, Demo.treeBlob (treeM 1 1), Demo.treeBlob (treeM 2 2)]]
    [snapM 1 1, snapM 2 2]

theorem healthyM : Healthy Demo.codec Demo.pruneIds repoM := Check.healthy_sound (k := 3) (by decide +kernel)

def dirM (t a : Int) : Dir Bytes :=
  .leaf [97] (.posix ⟨0o100644, some 3, 0, 0, a, 5⟩) (.file Demo.chunkA.data)
    (.dir [100] (.posix ⟨0o040755, none, 0, 0, 0, t⟩) C38.dirB .nil)

theorem holdsM1 : Holds Demo.codec repoM (snapM 1 1).tree (dirM 1 1) := Check.dirAt_sound 3 (by decide +kernel)

theorem holdsM2 : Holds Demo.codec repoM (snapM 2 2).tree (dirM 2 2) := Check.dirAt_sound 3 (by decide +kernel)

/-- The example meets the assumptions, and prints a letter for each. -/
example : Healthy Demo.codec Demo.pruneIds repoM ∧ Opens repoM (Check.opened repoM) ∧
    Holds Demo.codec repoM (snapM 1 1).tree (dirM 1 1) ∧ Holds Demo.codec repoM (snapM 2 2).tree (dirM 2 2) ∧
    (dirM 1 1).KindsOk ∧ (dirM 2 2).KindsOk :=
  ⟨healthyM, Check.opened_opens healthyM, holdsM1, holdsM2, by
    simp only [dirM, C38.dirB, Dir.KindsOk]; decide +kernel, by simp only [dirM, C38.dirB, Dir.KindsOk]; decide +kernel⟩

example : (diffSnapshots Demo.codec (Check.opened repoM) true (snapM 1 1) (snapM 2 2)).toOption.map
    (fun L => L.map (fun e => (e.1, e.2.1))) = some [(.md 'A', [[97]]), (.md 'T', [[100]])] := by decide +kernel

/-- A file whose bytes and metadata both change is printed with `C` alone: its new owner, say, is not
shown. -/
theorem contents_hide_metadata : (diffSnapshots Demo.codec (Check.opened C38.repo12) true C38.snap1 C38.snap2).toOption.map
    (fun L => L.filterMap (fun e => if e.2.1 = [[97]] then some e.1 else none)) = some [.changed] := by decide +kernel

end Backpak.C54
