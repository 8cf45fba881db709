import Verif.Lemmas.DemoLink

/-!
# A file from before 1970
-/

namespace Backpak.Demo

open Spec

/-- The last nanosecond of 1969. -/
def oldMd : Meta := .posix ⟨0o100644, some 0, 0, 0, 0, -1⟩

/-- An empty file under the name `f`. -/
def treeO : Blob ObjectId := treeBlob [([102], ⟨.file [], oldMd⟩)]

/-- A snapshot of `/f`. -/
def snapO : Snapshot ObjectId := ⟨1, [85], [1], [], [[[], [102]]], treeO.id⟩

def repoO : Repo ObjectId := repoOf pruneIds [[treeO]] [snapO]

theorem healthyO : Healthy codec pruneIds repoO := Check.healthy_sound (k := 3) (by decide +kernel)

def dirO : Dir Bytes := .leaf [102] oldMd (.file []) .nil

theorem holdsO : Holds codec repoO snapO.tree dirO := Check.dirAt_sound 3 (by decide +kernel)

/-- What is at `/f` now: a file with another time. -/
def lookO : Look := fun p => if p = [[], [102]] then some ((fileMd 0 8, some (.file [])), .nil) else none

def fsO : Fs := fun p =>
  if p = [[]] then some (objOf dirMd .dir)
  else if p = [[], [102]] then some (objOf (fileMd 0 8) (.file []))
  else none

def diskO : Disk ObjectId := ⟨fsO, 0, ReaderState.new, []⟩

theorem nowO : now (argsH true) snapO lookO = .leaf [102] (fileMd 0 8) (.file []) .nil := rfl

theorem treesO : ∀ t ∈ Check.involvedTrees codec repoO cut (now (argsH true) snapO lookO) [],
    ∀ t' ∈ Check.involvedTrees codec repoO cut (now (argsH true) snapO lookO) [],
    codec.hash (codec.encTree t) = codec.hash (codec.encTree t') → t = t' := by
  decide +kernel

theorem chunksO : ∀ x ∈ Check.filesOf (now (argsH true) snapO lookO), ∀ c ∈ Chunk.chunkFile codec.hash cut x,
    ∀ b' ∈ Check.blobs repoO, b'.id = c.id → b'.data = c.data := by
  decide +kernel

theorem sortedO : (now (argsH true) snapO lookO).Sorted := by
  rw [nowO]
  exact ⟨by decide, trivial⟩

theorem seenO : Seen lookO fsO [[], [102]] := by
  intro q
  have hl : lookO [[], [102]] = some ((fileMd 0 8, some (.file [])), .nil) := rfl
  rw [hl]
  rcases q with _ | ⟨a, q⟩
  · exact shows_obj (md := fileMd 0 8) (l := some (.file [])) ⟨_, rfl⟩
  · have : fsO ([[], [102]] ++ a :: q) = none := by simp [fsO]
    rw [this]
    cases q <;> simp [view, Shows]

/-- Everything a restore of it needs but a time that can be set. -/
theorem restoreButO : RestoreBut codec repoO cut lookO (fun _ => false) (argsH true) snapO dirO fsO where
  holds := holdsO
  kinds2 := ⟨rfl, trivial⟩
  posix _ := ⟨⟨_, rfl⟩, trivial⟩
  tops := by decide
  named := by decide
  distinct := by decide
  few := by decide
  apart _ := List.pairwise_singleton _ _
  present _ := by
    intro p hp
    rw [List.mem_singleton.mp hp]
    simp [lookO]
  single dst p h := by cases h
  solid dst h := by cases h
  enter := by
    intro p hp
    rw [List.mem_singleton.mp hp]
    refine ⟨by simp [dest, argsH], ?_, rfl⟩
    intro k hk
    have : k < 2 := hk
    rcases k with _ | _ | k
    · rfl
    · rfl
    · omega
  seen := by
    intro p hp
    rw [List.mem_singleton.mp hp]
    exact seenO
  plain := by rw [nowO]; exact ⟨by simp, trivial⟩
  kinds1 := by rw [nowO]; exact ⟨rfl, trivial⟩
  sorted := Sorted.subs sortedO
  fits := by
    rw [nowO]
    exact ⟨by decide, okFileMd _ _ (by decide) (by decide), by simp [LeafFits], trivial⟩
  faithful := by
    rw [nowO]
    refine ⟨?_, trivial⟩
    intro x m x0 h1 h2
    simp [dirO, fileAt] at h1 h2
    exact fun _ => h1.trans h2.2.symm
  contract := cut_contract
  chunks := Check.chunks_match chunksO
  trees := Check.trees_differ sortedO treesO

end Backpak.Demo
