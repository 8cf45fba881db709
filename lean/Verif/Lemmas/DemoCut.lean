import Verif.Lemmas.RestoreCut
import Verif.Lemmas.CheckRestore

/-!
# A restore cut short while it writes a file
-/

namespace Backpak.Demo

open Spec

/-- Node by node. -/
def MeasuredAll : Dir Bytes → Prop
  | .nil => True
  | .leaf _ md (.file x) r => (∃ m, md = .posix m ∧ m.size = some x.length) ∧ MeasuredAll r
  | .leaf _ _ _ r => MeasuredAll r
  | .dir _ _ s r => MeasuredAll s ∧ MeasuredAll r

theorem measured_of : ∀ {d : Dir Bytes}, MeasuredAll d → Measured d := by
  intro d
  induction d with
  | nil => intro _ q md x h; rw [entry_empty] at h; cases h
  | leaf k md l r ih =>
    intro hm q md' x h
    have hr : MeasuredAll r := by cases l <;> simp only [MeasuredAll] at hm <;> first | exact hm | exact hm.2
    cases q with
    | nil => cases h
    | cons n q =>
      by_cases e : n = k
      · subst e
        rw [entry_cons] at h
        simp only [child, if_true] at h
        cases q with
        | nil => cases h; exact hm.1
        | cons a q => cases h
      · refine ih hr (n :: q) md' x ?_
        rw [entry_cons] at h ⊢
        simpa only [child, if_neg e] using h
  | dir k md s r ihs ih =>
    intro hm q md' x h
    cases q with
    | nil => cases h
    | cons n q =>
      by_cases e : n = k
      · subst e
        rw [entry_cons] at h
        simp only [child, if_true] at h
        cases q with
        | nil => cases h
        | cons a q => exact ihs hm.1 (a :: q) md' x h
      · refine ih hm.2 (n :: q) md' x ?_
        rw [entry_cons] at h ⊢
        simpa only [child, if_neg e] using h

def aPath : Path := [[], [104], [97]]

def fsEnv0 : FsEnv := ⟨fun _ => 0, 0o644, 0o755, 0o777⟩

def disk0 : Disk ObjectId := ⟨fsH, 0, ReaderState.new, []⟩

/-- After the directory `/h/a` has been removed. -/
def disk1 : Disk ObjectId := ⟨(fsH.clear aPath).touchParent aPath 0, 1, ReaderState.new, []⟩

/-- After `/h/a` has been written. -/
@[irreducible] def disk2 : Disk ObjectId := (call codec.hash (Check.opened repoH) env fsEnv0 (.write aPath [chunkA.id]) disk1).1

theorem disk2_eq : disk2 = (call codec.hash (Check.opened repoH) env fsEnv0 (.write aPath [chunkA.id]) disk1).1 := by
  unfold disk2; rfl

/-- After the first of its three bytes has been written. -/
def diskK : Disk ObjectId := { disk2 with fs := disk2.fs.put aPath (some ⟨.file [1], 0o644, 0⟩) }

def opsH : List (SysOp ObjectId) :=
  [.rmAll aPath, .write aPath [chunkA.id], .times aPath ⟨some (toTimespec 0), some (toTimespec 5)⟩, .chmod aPath 0o100644, .rmFile [[], [104], [122]]]

theorem runH : ∃ lines, restore codec (Check.opened repoH) cut lookH (fun _ => false) (argsH true) snapH =
    .ok (opsH, lines) := by
  have h : (restore codec (Check.opened repoH) cut lookH (fun _ => false) (argsH true) snapH).toOption.map Prod.fst =
      some opsH := by decide +kernel
  cases hr : restore codec (Check.opened repoH) cut lookH (fun _ => false) (argsH true) snapH with
  | error e => rw [hr] at h; cases h
  | ok r =>
    obtain ⟨o, l⟩ := r
    rw [hr] at h
    have h' : o = opsH := Option.some.inj h
    exact ⟨l, by rw [h']⟩

theorem one : calls codec.hash (Check.opened repoH) env fsEnv0 [.rmAll aPath] disk0 = (disk1, none) := rfl

theorem two : (call codec.hash (Check.opened repoH) env fsEnv0 (.write aPath [chunkA.id]) disk1).2 = none := by
  decide +kernel

theorem two_a : disk2.fs aPath = some ⟨.file [1, 2, 3], 0o644, 0⟩ := by decide +kernel

theorem two_h : disk2.fs [[], [104]] = some (objOf dirMd .dir) := by decide +kernel

theorem cutH : CutShort codec.hash (Check.opened repoH) env fsEnv0 opsH disk0 diskK :=
  ⟨[.rmAll aPath], _, rfl, .inr ⟨_, _, disk1, rfl, one,
    .write 1 (Prod.ext disk2_eq.symm two) two_a⟩⟩

/-- What is in `/h` then. -/
def lookK : Look := fun p =>
  if p = [[], [104]] then
    some ((dirMd, none), .leaf [97] (fileMd 1 0) (.file [1]) (.leaf [122] (fileMd 1 8) (.file [9]) .nil))
  else none

theorem nowK (delete : Bool) : now (argsH delete) snapH lookK =
    .dir [104] dirMd (.leaf [97] (fileMd 1 0) (.file [1]) (.leaf [122] (fileMd 1 8) (.file [9]) .nil)) .nil := by
  cases delete <;> rfl

theorem way1 : disk1.fs.way aPath = .here := by decide +kernel

theorem call_only {H : Bytes → ObjectId} {src : Source ObjectId} {cenv : CacheEnv ObjectId} {env : FsEnv}
    {op : SysOp ObjectId} (hop : ∀ p, op ≠ .rmAll p) {d : Disk ObjectId} (h : d.fs.way op.path = .here) :
    Only op.path d.fs (call H src cenv env op d).1.fs := by
  unfold call
  split
  · exact Only.refl _ _
  rw [h]
  exact callHere_only hop d

theorem put_ne (fs : Fs) (p : Path) (o : Option Obj) {q : Path} (h : q ≠ p) : fs.put p o q = fs q := if_neg h

theorem put_eq (fs : Fs) (p : Path) (o : Option Obj) : fs.put p o p = o := if_pos rfl

theorem two_other {q : Path} (h1 : q ≠ aPath) (h2 : q ≠ [[], [104]]) : diskK.fs q = disk1.fs q := by
  have e1 : diskK.fs q = disk2.fs q := put_ne _ _ _ h1
  have ho : Only aPath disk1.fs disk2.fs := by
    rw [disk2_eq]
    exact call_only (op := .write aPath [chunkA.id]) (fun _ h => by cases h) way1
  rw [e1]
  exact (ho q h1).2 h2

theorem gone1 {q : Path} (h : [[], [104]] <+: q) (h2 : q ≠ [[], [104]]) (hz : q ≠ [[], [104], [122]]) : disk1.fs q = none := by
  show (fsH.clear aPath).touchParent aPath 0 q = none
  have hd : q ≠ aPath.dropLast := h2
  unfold Fs.touchParent
  rw [if_neg hd]
  unfold Fs.clear
  split
  · rfl
  · rename_i hp
    have hp : ¬ aPath <+: q := by simpa using hp
    obtain ⟨z, rfl⟩ := h
    simp only [fsH]
    rcases z with _ | ⟨a, z⟩
    · exact absurd rfl h2
    · by_cases ha : a = [97]
      · subst ha
        exact absurd ⟨z, rfl⟩ hp
      · rcases z with _ | ⟨b, z⟩
        · have : a ≠ [122] := by rintro rfl; exact hz rfl
          simp [ha, this]
        · simp [ha]

theorem seenK : Seen lookK diskK.fs [[], [104]] := by
  intro q
  have hl : lookK [[], [104]] = some ((dirMd, none), .leaf [97] (fileMd 1 0) (.file [1])
    (.leaf [122] (fileMd 1 8) (.file [9]) .nil)) := rfl
  rw [hl]
  rcases q with _ | ⟨a, q⟩
  · have : diskK.fs ([[], [104]] ++ []) = some (objOf dirMd .dir) := by
      rw [← two_h]
      exact put_ne disk2.fs aPath (some ⟨.file [1], 0o644, 0⟩) (q := [[], [104]]) (by decide)
    rw [this]
    exact shows_obj (md := dirMd) (l := none) ⟨_, rfl⟩
  · by_cases ha : [[], [104]] ++ a :: q = aPath
    · obtain ⟨rfl, rfl⟩ : a = [97] ∧ q = [] := by simpa [aPath] using ha
      have : diskK.fs ([[], [104]] ++ [[97]]) = some (objOf (fileMd 1 0) (.file [1])) := put_eq disk2.fs aPath _
      rw [this]
      exact shows_obj (md := fileMd 1 0) (l := some (.file [1])) ⟨_, rfl⟩
    · rw [two_other ha (by simp)]
      by_cases hz : [[], [104]] ++ a :: q = [[], [104], [122]]
      · obtain ⟨rfl, rfl⟩ : a = [122] ∧ q = [] := by simpa using hz
        have : disk1.fs ([[], [104]] ++ [[122]]) = some (objOf (fileMd 1 8) (.file [9])) := by decide +kernel
        rw [this]
        exact shows_obj (md := fileMd 1 8) (l := some (.file [9])) ⟨_, rfl⟩
      · rw [gone1 (List.prefix_append _ _) (by simp) hz]
        have h1 : ¬ (a = [97] ∧ q = []) := by simpa [aPath] using ha
        have h2 : ¬ (a = [122] ∧ q = []) := by simpa using hz
        rcases q with _ | ⟨b, q⟩
        · simp only [and_true] at h1 h2
          simp [view, entry, child, h1, h2, Shows]
        · by_cases e1 : a = [97]
          · subst e1; simp [view, entry, child, Shows]
          · by_cases e2 : a = [122]
            · subst e2; simp [view, entry, child, Shows]
            · simp [view, entry, child, e1, e2, Shows]

theorem sortedK : (now (argsH true) snapH lookK).Sorted := by
  rw [nowK]
  exact ⟨by decide, ⟨by decide, by decide, trivial⟩, trivial⟩

theorem treesK : ∀ t ∈ Check.involvedTrees codec repoH cut (now (argsH true) snapH lookK) [],
    ∀ t' ∈ Check.involvedTrees codec repoH cut (now (argsH true) snapH lookK) [],
    codec.hash (codec.encTree t) = codec.hash (codec.encTree t') → t = t' := by
  decide +kernel

theorem chunksK : ∀ x ∈ Check.filesOf (now (argsH true) snapH lookK), ∀ b ∈ Chunk.chunkFile codec.hash cut x,
    ∀ b' ∈ Check.blobs repoH, b'.id = b.id → b'.data = b.data := by
  decide +kernel

theorem measuredK : Measured (now (argsH true) snapH lookK) := by
  rw [nowK]
  exact measured_of ⟨⟨⟨_, rfl, rfl⟩, ⟨_, rfl, rfl⟩, trivial⟩, trivial⟩

theorem foundK : FoundOk codec repoH cut lookK (fun _ => false) (argsH true) snapH diskK.fs where
  present _ := by
    intro p hp
    rw [List.mem_singleton.mp hp]
    simp [lookK]
  single dst p h := by cases h
  solid dst h := by cases h
  seen := by
    intro p hp
    rw [List.mem_singleton.mp hp]
    exact seenK
  plain := by rw [nowK]; exact ⟨⟨by simp, by simp, trivial⟩, trivial⟩
  kinds := by rw [nowK]; exact ⟨rfl, ⟨rfl, rfl, trivial⟩, trivial⟩
  sorted := Sorted.subs sortedK
  fits := by
    rw [nowK]
    exact ⟨by decide, okDirMd, by decide, ⟨by decide, okFileMd _ _ (by decide) (by decide), by simp [LeafFits],
      by decide, okFileMd _ _ (by decide) (by decide), by simp [LeafFits], trivial⟩, trivial⟩
  measured := measuredK
  chunks := Check.chunks_match chunksK
  trees := Check.trees_differ sortedK treesK

theorem measured2 : Measured dirH := measured_of ⟨⟨⟨_, rfl, rfl⟩, trivial⟩, trivial⟩

theorem measuredH : Measured (now (argsH true) snapH lookH) := by
  rw [nowH]
  exact measured_of ⟨⟨⟨⟨_, rfl, rfl⟩, trivial⟩, ⟨_, rfl, rfl⟩, trivial⟩, trivial⟩

/-! ## A destination of another kind -/

/-- `/h` is a file. -/
def lookL : Look := fun p => if p = [[], [104]] then some ((fileMd 1 8, some (.file [9])), .nil) else none

def fsL : Fs := fun p =>
  if p = [[]] then some (objOf dirMd .dir)
  else if p = [[], [104]] then some (objOf (fileMd 1 8) (.file [9]))
  else none

def diskL : Disk ObjectId := ⟨fsL, 0, ReaderState.new, []⟩

/-- With the file removed. -/
def diskL1 : Disk ObjectId := ⟨(fsL.put [[], [104]] none).touchParent [[], [104]] 0, 1, ReaderState.new, []⟩

theorem nowL (delete : Bool) : now (argsH delete) snapH lookL = .leaf [104] (fileMd 1 8) (.file [9]) .nil := by
  cases delete <;> rfl

theorem runL : ∃ rest lines, restore codec (Check.opened repoH) cut lookL (fun _ => false) (argsH true) snapH =
    .ok (.rmFile [[], [104]] :: rest, lines) := by
  have h : ((restore codec (Check.opened repoH) cut lookL (fun _ => false) (argsH true) snapH).toOption.map
      Prod.fst).map (List.take 1) = some [.rmFile [[], [104]]] := by decide +kernel
  cases hr : restore codec (Check.opened repoH) cut lookL (fun _ => false) (argsH true) snapH with
  | error e => rw [hr] at h; cases h
  | ok r =>
    obtain ⟨o, l⟩ := r
    rw [hr] at h
    have h' : o.take 1 = [.rmFile [[], [104]]] := Option.some.inj h
    cases o with
    | nil => cases h'
    | cons op rest =>
      have : op = .rmFile [[], [104]] := (List.cons.inj h').1
      exact ⟨rest, l, by rw [this]⟩

theorem oneL : calls codec.hash (Check.opened repoH) env fsEnv0 [.rmFile [[], [104]]] diskL = (diskL1, none) := rfl

theorem sortedL : (now (argsH true) snapH lookL).Sorted := by
  rw [nowL]
  exact ⟨by decide, trivial⟩

theorem treesL : ∀ t ∈ Check.involvedTrees codec repoH cut (now (argsH true) snapH lookL) [],
    ∀ t' ∈ Check.involvedTrees codec repoH cut (now (argsH true) snapH lookL) [],
    codec.hash (codec.encTree t) = codec.hash (codec.encTree t') → t = t' := by
  decide +kernel

theorem chunksL : ∀ x ∈ Check.filesOf (now (argsH true) snapH lookL), ∀ b ∈ Chunk.chunkFile codec.hash cut x,
    ∀ b' ∈ Check.blobs repoH, b'.id = b.id → b'.data = b.data := by
  decide +kernel

theorem seenL : Seen lookL fsL [[], [104]] := by
  intro q
  have hl : lookL [[], [104]] = some ((fileMd 1 8, some (.file [9])), .nil) := rfl
  rw [hl]
  rcases q with _ | ⟨a, q⟩
  · exact shows_obj (md := fileMd 1 8) (l := some (.file [9])) ⟨_, rfl⟩
  · have : fsL ([[], [104]] ++ a :: q) = none := by simp [fsL]
    rw [this]
    cases q <;> simp [view, Shows]

theorem restoreOkL : RestoreOk codec repoH cut lookL (fun _ => false) (argsH true) snapH dirH fsL where
  holds := holdsH
  kinds2 := ⟨rfl, ⟨rfl, trivial⟩, trivial⟩
  posix _ := ⟨⟨_, rfl⟩, ⟨⟨_, rfl⟩, trivial⟩, trivial⟩
  datable _ := ⟨datable_posix (by decide) (by decide), ⟨datable_posix (by decide) (by decide), trivial⟩, trivial⟩
  tops := by decide
  named := by decide
  distinct := by decide
  few := by decide
  apart _ := List.pairwise_singleton _ _
  present _ := by
    intro p hp
    rw [List.mem_singleton.mp hp]
    simp [lookL]
  single dst p h := by cases h
  solid dst h := by cases h
  enter := by
    intro p hp
    rw [List.mem_singleton.mp hp]
    refine ⟨by simp [dest, argsH], ?_, rfl⟩
    intro k hk
    have : k < 2 := hk
    rcases k with _ | _ | k
    · rfl
    · rfl
    · omega
  seen := by
    intro p hp
    rw [List.mem_singleton.mp hp]
    exact seenL
  plain := by rw [nowL]; exact ⟨by simp, trivial⟩
  kinds1 := by rw [nowL]; exact ⟨rfl, trivial⟩
  sorted := Sorted.subs sortedL
  fits := by
    rw [nowL]
    exact ⟨by decide, okFileMd _ _ (by decide) (by decide), by simp [LeafFits], trivial⟩
  faithful := by
    rw [nowL]
    refine ⟨?_, trivial⟩
    intro x m x0 _ h
    simp [dirH, fileAt] at h
  contract := cut_contract
  chunks := Check.chunks_match chunksL
  trees := Check.trees_differ sortedL treesL

end Backpak.Demo
