import Verif.Lemmas.Check
import Verif.Lemmas.DemoRun
import Verif.Lemmas.Prune

/-!
# Small repositories to prune, for examples
-/

namespace Backpak.Demo

open Spec Pipeline

/-- Names as in `ids`, but an index is named by what it supersedes alone, so that all the indexes
a run could write have one name, which can be computed. -/
def pruneIds : Ids ObjectId := { ids with indexId := fun x => hash (1 :: x.supersedes.flatMap ObjectId.digest) }

def blobOf (k : Kind) (x : Bytes) : Blob ObjectId := ⟨x, hash x, k⟩

def chunkA : Blob ObjectId := blobOf .chunk [1, 2, 3]
def chunkB : Blob ObjectId := blobOf .chunk [4]
def junk : Blob ObjectId := blobOf .chunk [9, 9]

/-- A directory with one file of one chunk. -/
def oneFile (n : Name) (c : Blob ObjectId) : Tree ObjectId :=
  [(n, ⟨.file [c.id], fileMd c.data.length 5⟩)]

def treeBlob (t : Tree ObjectId) : Blob ObjectId := blobOf .tree (codec.encTree t)

def treeA : Blob ObjectId := treeBlob (oneFile [97] chunkA)
def treeB : Blob ObjectId := treeBlob (oneFile [98] chunkB)

/-- A repository of these packs, listed by one index, with these snapshots. -/
def repoOf (ids : Ids ObjectId) (packs : List (Pack ObjectId)) (snaps : List (Snapshot ObjectId)) :
    Repo ObjectId :=
  let packs := BMap.ofList (packs.map fun p => (ids.packId (Pack.manifestOf p), p))
  let x : Index ObjectId := ⟨[], packs.map fun e => (e.1, Pack.manifestOf e.2)⟩
  ⟨packs, [(ids.indexId x, x)], BMap.ofList (snaps.map fun s => (ids.snapId s, s))⟩

def snapOf (t : Blob ObjectId) (time : Int) : Snapshot ObjectId := ⟨time, [85], [1], [], [[[104]]], t.id⟩

def snapA : Snapshot ObjectId := snapOf treeA 1
def snapB : Snapshot ObjectId := snapOf treeB 2

/-- Two snapshots that share a pack of chunks and one of trees, and a pack that nothing uses. -/
def repoAB : Repo ObjectId := repoOf pruneIds [[chunkA, chunkB], [treeA, treeB], [junk]] [snapA, snapB]

/-- The same after the second snapshot was forgotten. -/
def repoA : Repo ObjectId := { repoAB with snapshots := [(pruneIds.snapId snapA, snapA)] }

def clean (R : Repo ObjectId) : World ObjectId := ⟨R, ⟨none, [], []⟩⟩

theorem healthyAB : Healthy codec pruneIds repoAB := Check.healthy_sound (k := 2) (by decide +kernel)

theorem healthyA : Healthy codec pruneIds repoA := Check.healthy_sound (k := 2) (by decide +kernel)

/-- Snapshots as they are loaded, oldest first. -/
def snapsOf (R : Repo ObjectId) : List (Snap ObjectId) := R.snapshots.map fun e => (e.2, e.1)

/-- A clock that counts, and a heap that takes the first oldest. -/
def env : CacheEnv ObjectId := ⟨fun n => n, C33.oldest⟩

theorem env_ok : C33.EnvOk env := ⟨C33.oldest_min, strictMono_id⟩

theorem pruneOk_of {R : Repo ObjectId} (h : Healthy codec pruneIds R)
    (hn : ∀ b ∈ Check.blobs R, b.id = codec.emptyId → b.kind = .tree) :
    PruneOk codec env pruneIds (clean R) (Check.opened R) (snapsOf R) where
  clock := env_ok
  healthy := h
  leftover := (leftover_clean h).prune (by intro x hx; cases hx)
  opens := Check.opened_opens h
  loaded i s := by
    unfold snapsOf
    rw [List.mem_map]
    constructor
    · exact fun hm => ⟨_, hm, rfl⟩
    · rintro ⟨⟨j, s'⟩, hm, he⟩; cases he; exact hm
  noEmpty x hx := by
    have := hn _ (Check.has_iff.mp hx).2 rfl
    cases this

/-- The plan of a prune, if there is one. -/
def prunePlanOf (r : Res (Option (Plan ObjectId))) : Plan ObjectId :=
  match r with
  | .ok (some p) => p
  | _ => ⟨Index.empty, [], .ok []⟩

def isPlan (r : Res (Option (Plan ObjectId))) : Bool :=
  match r with
  | .ok (some _) => true
  | _ => false

theorem prunePlanOf_eq {r : Res (Option (Plan ObjectId))} (h : isPlan r = true) :
    r = .ok (some (prunePlanOf r)) := by
  unfold isPlan at h
  split at h
  · rfl
  · cases h

/-- Pruning the second. -/
def planA : Plan ObjectId :=
  prunePlanOf (prunePlan codec env (clean repoA) (Check.opened repoA) (snapsOf repoA) false)

theorem planA_eq : prunePlan codec env (clean repoA) (Check.opened repoA) (snapsOf repoA) false =
    .ok (some planA) := prunePlanOf_eq (by decide +kernel)

theorem pruneOkA : PruneOk codec env pruneIds (clean repoA) (Check.opened repoA) (snapsOf repoA) :=
  pruneOk_of healthyA (by decide +kernel)

/-- When all indexes a run could write have one, new, name. -/
theorem indexNew_of {R : Repo ObjectId} {start : Index ObjectId} {cores : Nat} {ss : List (Blob ObjectId)}
    (h : decide (pruneIds.indexId start ∉ BMap.keys R.indexes ∧
      ∀ e ∈ R.indexes, pruneIds.indexId start ∉ e.2.supersedes) = true) :
    IndexNew (liveCfg pruneIds cores start) R ss := by
  rw [decide_eq_true_eq] at h
  intro x hx
  have : (liveCfg pruneIds cores start).ids.indexId x = pruneIds.indexId start := by
    have h1 := hx.sup
    show hash (1 :: x.supersedes.flatMap ObjectId.digest) = _
    rw [h1]
    rfl
  rw [this]
  exact ⟨h.1, fun ⟨j, y, h1, h2⟩ => h.2 (j, y) h1 h2⟩

theorem noClashA : PruneNoClash pruneIds 4 (clean repoA) planA where
  packs := Check.packsDiffer_sound (by decide +kernel)
  indexes := indexNew_of (by decide +kernel)

end Backpak.Demo
