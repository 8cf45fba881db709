import Verif.Lemmas.DemoCut

/-!
# Restores of a symlink, and a restore of what has been restored
-/

namespace Backpak.Demo

open Spec

/-- A symlink under the name `l`. -/
def treeW : Blob ObjectId := treeBlob [([108], ⟨.link [120], linkMd⟩)]

/-- A snapshot of `/l`. -/
def snapW : Snapshot ObjectId := ⟨1, [85], [1], [], [[[], [108]]], treeW.id⟩

def repoW : Repo ObjectId := repoOf pruneIds [[treeW]] [snapW]

theorem healthyW : Healthy codec pruneIds repoW := Check.healthy_sound (k := 3) (by decide +kernel)

def dirW : Dir Bytes := .leaf [108] linkMd (.link [120]) .nil

theorem holdsW : Holds codec repoW snapW.tree dirW := Check.dirAt_sound 3 (by decide +kernel)

/-- What is at `/l` now: a file, or a link with another time. -/
def entW : Bool → Meta × Leaf Bytes
  | false => (fileMd 1 8, .file [9])
  | true => (.posix ⟨0o120777, none, 0, 0, 0, 3⟩, .link [120])

def lookW (b : Bool) : Look := fun p => if p = [[], [108]] then some (((entW b).1, some (entW b).2), .nil) else none

def fsW (b : Bool) : Fs := fun p =>
  if p = [[]] then some (objOf dirMd .dir)
  else if p = [[], [108]] then some (objOf (entW b).1 (itemOf (some (entW b).2)))
  else none

def diskW (b : Bool) : Disk ObjectId := ⟨fsW b, 0, ReaderState.new, []⟩

theorem nowW (b : Bool) : now (argsH true) snapW (lookW b) = .leaf [108] (entW b).1 (entW b).2 .nil := by
  cases b <;> rfl

theorem sortedW (b : Bool) : (now (argsH true) snapW (lookW b)).Sorted := by
  rw [nowW]
  exact ⟨by decide, trivial⟩

theorem treesW : ∀ b, ∀ t ∈ Check.involvedTrees codec repoW cut (now (argsH true) snapW (lookW b)) [],
    ∀ t' ∈ Check.involvedTrees codec repoW cut (now (argsH true) snapW (lookW b)) [],
    codec.hash (codec.encTree t) = codec.hash (codec.encTree t') → t = t' := by
  decide +kernel

theorem chunksW : ∀ b, ∀ x ∈ Check.filesOf (now (argsH true) snapW (lookW b)), ∀ c ∈ Chunk.chunkFile codec.hash cut x,
    ∀ b' ∈ Check.blobs repoW, b'.id = c.id → b'.data = c.data := by
  decide +kernel

theorem seenW (b : Bool) : Seen (lookW b) (fsW b) [[], [108]] := by
  intro q
  have hl : lookW b [[], [108]] = some (((entW b).1, some (entW b).2), .nil) := rfl
  rw [hl]
  rcases q with _ | ⟨a, q⟩
  · exact shows_obj (md := (entW b).1) (l := some (entW b).2) (by cases b <;> exact ⟨_, rfl⟩)
  · have : fsW b ([[], [108]] ++ a :: q) = none := by simp [fsW]
    rw [this]
    cases q <;> simp [view, Shows]

theorem restoreOkW (b : Bool) : RestoreOk codec repoW cut (lookW b) (fun _ => false) (argsH true) snapW dirW (fsW b) where
  holds := holdsW
  kinds2 := ⟨rfl, trivial⟩
  posix _ := ⟨⟨_, rfl⟩, trivial⟩
  datable _ := ⟨datable_posix (by decide) (by decide), trivial⟩
  tops := by decide
  named := by decide
  distinct := by decide
  few := by decide
  apart _ := List.pairwise_singleton _ _
  present _ := by
    intro p hp
    rw [List.mem_singleton.mp hp]
    simp [lookW]
  single dst p h := by cases h
  solid dst h := by cases h
  enter := by
    intro p hp
    rw [List.mem_singleton.mp hp]
    refine ⟨by simp [dest, argsH], ?_, rfl⟩
    intro k hk
    have : k < 2 := hk
    rcases k with _ | _ | k
    · rfl
    · rfl
    · omega
  seen := by
    intro p hp
    rw [List.mem_singleton.mp hp]
    exact seenW b
  plain := by rw [nowW]; cases b <;> exact ⟨by simp [entW], trivial⟩
  kinds1 := by rw [nowW]; cases b <;> exact ⟨rfl, trivial⟩
  sorted := Sorted.subs (sortedW b)
  fits := by
    rw [nowW]
    cases b
    · exact ⟨by decide, okFileMd _ _ (by decide) (by decide), by simp [entW, LeafFits], trivial⟩
    · refine ⟨by decide, ?_, by simp [entW, LeafFits], trivial⟩
      simp only [entW, Serde.OkMeta, Serde.InI64]
      norm_num
      intro n h; cases h
  faithful := by
    rw [nowW]
    refine ⟨?_, trivial⟩
    intro x m x0 _ h
    simp [dirW, fileAt] at h
  contract := cut_contract
  chunks := Check.chunks_match (chunksW b)
  trees := Check.trees_differ (sortedW b) (treesW b)

/-! ## Once more after a restore -/

/-- A clock that stands at 7. -/
def fsEnv7 : FsEnv := ⟨fun _ => 7, 0o644, 0o755, 0o777⟩

/-- After a restore of `snapH` over what `lookH` shows. -/
@[irreducible] def disk7 : Disk ObjectId := (calls codec.hash (Check.opened repoH) env fsEnv7 opsH disk0).1

theorem disk7_eq : disk7 = (calls codec.hash (Check.opened repoH) env fsEnv7 opsH disk0).1 := by
  unfold disk7; rfl

theorem end7 : calls codec.hash (Check.opened repoH) env fsEnv7 opsH disk0 = (disk7, none) :=
  Prod.ext disk7_eq.symm (by decide +kernel)

def dirMd7 : Meta := .posix ⟨0o040755, none, 0, 0, 0, 7⟩

def look7 : Look := fun p =>
  if p = [[], [104]] then some ((dirMd7, none), .leaf [97] (fileMd 3 5) (.file [1, 2, 3]) .nil) else none

theorem now7 : now (argsH true) snapH look7 = .dir [104] dirMd7 (.leaf [97] (fileMd 3 5) (.file [1, 2, 3]) .nil) .nil :=
  rfl

theorem sorted7 : (now (argsH true) snapH look7).Sorted := by
  rw [now7]
  exact ⟨by decide, ⟨by decide, trivial⟩, trivial⟩

theorem trees7 : ∀ t ∈ Check.involvedTrees codec repoH cut (now (argsH true) snapH look7) [],
    ∀ t' ∈ Check.involvedTrees codec repoH cut (now (argsH true) snapH look7) [],
    codec.hash (codec.encTree t) = codec.hash (codec.encTree t') → t = t' := by
  decide +kernel

theorem chunks7 : ∀ x ∈ Check.filesOf (now (argsH true) snapH look7), ∀ b ∈ Chunk.chunkFile codec.hash cut x,
    ∀ b' ∈ Check.blobs repoH, b'.id = b.id → b'.data = b.data := by
  decide +kernel

theorem top7 : disk7.fs [[], [104]] = some (objOf dirMd7 .dir) := by decide +kernel

theorem file7 : disk7.fs [[], [104], [97]] = some (objOf (fileMd 3 5) (.file [1, 2, 3])) := by decide +kernel

theorem seen7 (h : ∀ q, (disk7.fs ([[], [104]] ++ q)).map Obj.item = (entry dirH ([104] :: q)).map (fun e => itemOf e.2)) :
    Seen look7 disk7.fs [[], [104]] := by
  intro q
  have hl : look7 [[], [104]] = some ((dirMd7, none), .leaf [97] (fileMd 3 5) (.file [1, 2, 3]) .nil) := rfl
  rw [hl]
  rcases q with _ | ⟨a, q⟩
  · rw [List.append_nil, top7]
    exact shows_obj (md := dirMd7) (l := none) ⟨_, rfl⟩
  · by_cases ha : a = [97] ∧ q = []
    · obtain ⟨rfl, rfl⟩ := ha
      have : disk7.fs ([[], [104]] ++ [[97]]) = some (objOf (fileMd 3 5) (.file [1, 2, 3])) := file7
      rw [this]
      exact shows_obj (md := fileMd 3 5) (l := some (.file [1, 2, 3])) ⟨_, rfl⟩
    · have hn : entry dirH ([104] :: a :: q) = none := by
        rcases q with _ | ⟨b, q⟩
        · have : a ≠ [97] := fun e => ha ⟨e, rfl⟩
          simp [dirH, entry, child, this]
        · by_cases e : a = [97]
          · subst e; simp [dirH, entry, child]
          · simp [dirH, entry, child, e]
      have h1 := h (a :: q)
      rw [hn] at h1
      rw [Option.map_eq_none_iff.mp h1]
      rcases q with _ | ⟨b, q⟩
      · have : a ≠ [97] := fun e => ha ⟨e, rfl⟩
        simp [view, entry, child, this, Shows]
      · by_cases e : a = [97]
        · subst e; simp [view, entry, child, Shows]
        · simp [view, entry, child, e, Shows]

theorem found7 (h : ∀ q, (disk7.fs ([[], [104]] ++ q)).map Obj.item = (entry dirH ([104] :: q)).map (fun e => itemOf e.2)) :
    FoundOk codec repoH cut look7 (fun _ => false) (argsH true) snapH disk7.fs where
  present _ := by
    intro p hp
    rw [List.mem_singleton.mp hp]
    simp [look7]
  single dst p h := by cases h
  solid dst h := by cases h
  seen := by
    intro p hp
    rw [List.mem_singleton.mp hp]
    exact seen7 h
  plain := by rw [now7]; exact ⟨⟨by simp, trivial⟩, trivial⟩
  kinds := by rw [now7]; exact ⟨rfl, ⟨rfl, trivial⟩, trivial⟩
  sorted := Sorted.subs sorted7
  fits := by
    rw [now7]
    refine ⟨by decide, ?_, by decide, ⟨by decide, okFileMd _ _ (by decide) (by decide), by simp [LeafFits], trivial⟩, trivial⟩
    simp only [dirMd7, Serde.OkMeta, Serde.InI64]
    norm_num
    intro n h; cases h
  measured := by rw [now7]; exact measured_of ⟨⟨⟨_, rfl, rfl⟩, trivial⟩, trivial⟩
  chunks := Check.chunks_match chunks7
  trees := Check.trees_differ sorted7 trees7

end Backpak.Demo
