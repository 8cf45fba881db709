import Verif.Model.Repack
import Verif.Model.Backup

/-!
# The prune command (`src/ui/prune.rs`)
-/

namespace Backpak

open Pipeline

variable {Id : Type} [LinearOrder Id]

/-- `blobs_in_forest` (`src/ui/prune.rs:252-259`): a set, here the list it is collected from. -/
def blobsInForest (F : Forest Id) : List Id := F.flatMap (fun e => e.1 :: chunksInTree e.2)

/-- `reachable_blobs` (`src/ui/prune.rs:243-250`). -/
def reachableBlobs (sfs : List (Snap Id × Forest Id)) : List Id :=
  sfs.flatMap (fun e => blobsInForest e.2)

/-- Whether every blob of a pack is reachable (`src/ui/prune.rs:273-280`). -/
def reusable (reach : List Id) (m : Manifest Id) : Bool := m.all (fun e => reach.contains e.id)

/-- The index a prune starts from, and the packs it uploads first (`src/ui/prune.rs:119-161`):
`fresh`, or a work-in-progress index that supersedes the same indexes and lists at least as many
packs. -/
def pruneStart (w : World Id) (fresh : Index Id) : Res (Index Id × List Id) :=
  (findResumable w).map (fun r =>
    match r with
    | none => (fresh, [])
    | some (wip, here) =>
      if wip.supersedes ≠ fresh.supersedes then (fresh, [])
      else if (BMap.keys fresh.packs).all (fun p => (wip.packs.get? p).isSome) then (wip, here)
      else (fresh, []))

/-- The command up to starting its threads, and what it then does (`src/ui/prune.rs:40-240`).
`src` is the opened repository and `snaps` its snapshots. `none`: there is nothing to do. The
messages are in `pruneTells`. -/
def prunePlan (C : Codec Id) (env : CacheEnv Id) (w : World Id) (src : Source Id)
    (snaps : List (Snap Id)) (dry : Bool) : Res (Option (Plan Id)) :=
  match loadForests C src (newTreeCache C) snaps with
  | .error e => .error e
  | .ok sfs =>
    let reach := reachableBlobs sfs
    let keep := src.index.packs.filter (fun e => reusable reach e.2)
    let drop := src.index.packs.filter (fun e => !reusable reach e.2)
    if drop.isEmpty then .ok none
    else
      let fresh : Index Id := ⟨BMap.keys w.repo.indexes, keep⟩
      match Index.blobIds fresh with
      | .error e => .error e
      | .ok known =>
        match pruneStart w fresh with
        | .error e => .error e
        | .ok (start, here) =>
          let packed := BMap.keys known ++ listedIds start
          match walkSnapshots C src env (fun _ => true) sfs (⟨packed, []⟩, ReaderState.new) with
          | .error e => .error e
          | .ok (_, (s, _)) =>
            .ok (some ⟨start, (if dry then [] else here.map Op.up) ++ s.sent.map Op.send,
              .ok (if dry then [] else
                (BMap.keys w.repo.indexes).map Post.rmIndex ++ (BMap.keys drop).map Post.rmPack)⟩)

/-- Whether no blob of a pack is reachable (`partition_droppable_packs`, `src/ui/prune.rs:283-302`). -/
def droppable (reach : List Id) (m : Manifest Id) : Bool := !m.any (fun e => reach.contains e.id)

/-- `packs_blob_size` (`src/ui/prune.rs:304-313`). The sum is of 64-bit numbers there; here it has no bound. -/
def packsBlobSize (l : BMap Id (Manifest Id)) : Nat := (l.map (fun e => (e.2.map Entry.length).sum)).sum

/-- What a prune prints before it does anything (`src/ui/prune.rs:72-109`): that all the data, of this size, is in use;
or how many packs it will keep, rewrite and drop, with their sizes, and how many indexes it will replace. -/
inductive PruneTells where
  | inUse (size : Nat)
  | will (keep keepSize rewrite rewriteSize drop dropSize indexes : Nat)
deriving DecidableEq, Repr

/-- What `prune` prints, dry run or not (`src/ui/prune.rs:40-109`). How a size is rounded to be shown is left out. -/
def pruneTells (C : Codec Id) (w : World Id) (src : Source Id) (snaps : List (Snap Id)) : Res PruneTells :=
  match loadForests C src (newTreeCache C) snaps with
  | .error e => .error e
  | .ok sfs =>
    let reach := reachableBlobs sfs
    let keep := src.index.packs.filter (fun e => reusable reach e.2)
    let prune := src.index.packs.filter (fun e => !reusable reach e.2)
    let drop := prune.filter (fun e => droppable reach e.2)
    let sparse := prune.filter (fun e => !droppable reach e.2)
    if prune.isEmpty then .ok (.inUse (packsBlobSize keep))
    else .ok (.will keep.length (packsBlobSize keep) sparse.length (packsBlobSize sparse) drop.length (packsBlobSize drop)
      w.repo.indexes.length)

end Backpak
