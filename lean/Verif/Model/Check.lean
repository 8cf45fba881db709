import Verif.Model.Source
import Verif.Model.Names
import Verif.Model.Index
import Verif.Spec.Codec

/-!
# Checking a repository (`src/ui/check.rs:42-222`)

Here a repository is its files, byte for byte, so that they can be anything.
-/

namespace Backpak

/-- The files in the directories of a repository. Files whose names are not IDs make every command
fail (`id_from_path`) and are left out. -/
structure Stored where
  packs : List (ObjectId × Bytes)
  indexes : List (ObjectId × Bytes)
  snapshots : List (ObjectId × Bytes)

/-- `CachedBackend::read`, when reading always goes to the backend. -/
def getFile (l : List (ObjectId × Bytes)) (id : ObjectId) : Res Bytes :=
  match l.find? (fun e => e.1 = id) with
  | none => .error (.err "Couldn't open")
  | some e => .ok e.2

namespace Check

variable (Z : Zstd) (H : Bytes → ObjectId) (O : Serde.OldTime)

/-- `MAGIC_BYTES` (`src/index.rs:42`). -/
def indexMagic : Bytes := ascii "MKBAKIDX1"

/-- `index::load` (`src/index.rs:326-335,354-366`) once the backend has returned `f`. -/
def loadIndex (id : ObjectId) (f : Bytes) : Res (Index ObjectId) :=
  if f.length < 9 then .error (.err "failed to fill whole buffer")
  else if f.take 9 ≠ indexMagic then .error (.err "Wrong magic bytes for index file")
  else
    let s := Z.stream (f.drop 9)
    match s.item Serde.decIndex s.data.length with
    | .error e => .error e
    | .ok (x, used, _) => if id = H used then .ok x else .error (.err "Index now hashes to")

/-- `snapshot::load` (`src/snapshot.rs:171-202`) once the backend has returned `f`. -/
def loadSnapshot (id : ObjectId) (f : Bytes) : Res (Snapshot ObjectId) :=
  match Serde.readSnapshotFile O f with
  | none => .error (.err "Couldn't load snapshot")
  | some (s, rest) =>
    let record := f.drop 9
    if id = H (record.take (record.length - rest.length)) then .ok s
    else .error (.err "Snapshot's contents changed!")

/-- `build_master_index` on the files. The loads are concurrent; `C17.order_irrelevant` is why one
order is enough. -/
def openIndex (R : Stored) : Res (Index ObjectId) :=
  Index.buildMaster (R.indexes.map fun e => (e.1, loadIndex Z H e.1 e.2))

/-- The start of every way of reading a pack. -/
def openPack (R : Stored) (p : ObjectId) : Res Stream :=
  match getFile R.packs p with
  | .error e => .error e
  | .ok f =>
    match Pack.checkMagic f with
    | .error e => .error e
    | .ok rest => .ok (Z.stream rest)

/-- `check_pack` (`src/ui/check.rs:153-162`). -/
def checkPack (R : Stored) (p : ObjectId) (m : Manifest ObjectId) : Res Unit :=
  match getFile R.packs p with
  | .error e => .error e
  | .ok f => Pack.verify Z H f m

/-- What `list_packs` gives; sizes, which are not used, are left out. -/
def listPacks (R : Stored) : List (Bytes × Nat) :=
  R.packs.map fun e => (Shelf.pack.dir ++ objectName .pack e.1, 0)

/-- `map_chunks_to_snapshots` (`src/ui/check.rs:197-222`): the chunks; which snapshots use them is only
printed. -/
def chunksOf (src : Source ObjectId) : List (ObjectId × Bytes) → Forest ObjectId → Res (List ObjectId)
  | [], _ => .ok []
  | (id, f) :: l, cache =>
    match loadSnapshot H O id f with
    | .error e => .error e
    | .ok s =>
      match forestFromRoot (Codec.real H) src s.tree cache with
      | .error e => .error e
      | .ok (forest, cache') =>
        match chunksOf src l cache' with
        | .error e => .error e
        | .ok cs => .ok (forest.flatMap (fun e => chunksInTree e.2) ++ cs)

/-- `run` (`src/ui/check.rs:42-151`): it fails if there is any trouble. Unreachable packs are only
warned about. -/
def check (readPacks : Bool) (R : Stored) : Res Unit :=
  match openIndex Z H R with
  | .error e => .error e
  | .ok ix =>
    let bad := if readPacks then ix.packs.filter (fun e => (checkPack Z H R e.1 e.2).toBool = false)
      else ix.packs.filter (fun e => (probePack (listPacks R) e.1).toBool = false)
    match Index.blobToPack ix with
    | .error e => .error e
    | .ok bm =>
      match chunksOf H O ⟨ix, bm, openPack Z R⟩ R.snapshots (newTreeCache (Codec.real H)) with
      | .error e => .error e
      | .ok cs =>
        if bad = [] ∧ ∀ c ∈ cs, c ∈ BMap.keys bm then .ok () else .error (.err "Check failed!")

end Check

end Backpak
