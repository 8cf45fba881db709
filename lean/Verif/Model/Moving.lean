import Verif.Model.Check

/-!
# Commands on a repository that changes while they run

Nothing locks a repository. A command lists the indexes and then loads them one at a time, and every load, every listing
and every read of a pack shows the repository as it is at that moment.
-/

namespace Backpak

variable {Id : Type} [LinearOrder Id]

/-- The loads of `build_master_index` (`src/index.rs:214-237`) for the indexes `l` that were listed, when index `i` is
loaded while the repository is `R i`. -/
def loadsOver (R : Id → Repo Id) (l : List Id) : List (Id × Res (Index Id)) :=
  l.map fun i => (i, match BMap.get? (R i).indexes i with
    | some x => .ok x
    | none => .error (.err "Couldn't open"))

/-- What opening pack `p` gives while the repository is `R`, if `str p` is what its bytes decompress to whenever it is
there (`src/backend/fs.rs:80-85`). A cache, which only lets more reads succeed, is left out. -/
def readOf (str : Id → Stream) (R : Repo Id) (p : Id) : Res Stream :=
  if p ∈ BMap.keys R.packs then .ok (str p) else .error (.err "Couldn't open")

namespace Check

/-- `run` of `check` (`src/ui/check.rs:42-151`), when the repository is `S₁` while it loads the indexes, `S₂` while it lists
and reads the packs, and `S₃` while it reads the snapshots and their trees. -/
def checkOver (Z : Zstd) (H : Bytes → ObjectId) (O : Serde.OldTime) (readPacks : Bool) (S₁ S₂ S₃ : Stored) : Res Unit :=
  match openIndex Z H S₁ with
  | .error e => .error e
  | .ok ix =>
    let bad := if readPacks then ix.packs.filter (fun e => (checkPack Z H S₂ e.1 e.2).toBool = false)
      else ix.packs.filter (fun e => (probePack (listPacks S₂) e.1).toBool = false)
    match Index.blobToPack ix with
    | .error e => .error e
    | .ok bm =>
      match chunksOf H O ⟨ix, bm, openPack Z S₃⟩ S₃.snapshots (newTreeCache (Codec.real H)) with
      | .error e => .error e
      | .ok cs =>
        if bad = [] ∧ ∀ c ∈ cs, c ∈ BMap.keys bm then .ok () else .error (.err "Check failed!")

end Check

end Backpak
