import Verif.Model.Types

/-!
# Loading and querying indexes (`src/index.rs`)
-/

namespace Backpak

variable {Id : Type} [LinearOrder Id]

namespace Index

/-- The shared results of `build_master_index_with_sizes` (`src/index.rs:205-212`). The
sizes, used for reporting only, are left out. -/
structure Loaded (Id : Type) where
  superseded : BSet Id
  loaded : BMap Id (BMap Id (Manifest Id))

/-- What one load does under the lock (`src/index.rs:222-234`). -/
def loadOne (r : Loaded Id) (id : Id) (x : Index Id) : Res (Loaded Id) :=
  if (r.loaded.get? id).isSome then .error (.err "Duplicate index read from backend!")
  else .ok ⟨x.supersedes.foldl (fun s i => BSet.insert i s) r.superseded,
    BMap.insert id x.packs r.loaded⟩

/-- All loads, in the order in which they take the lock (`src/index.rs:214-237`): any order
of the listing is possible. A load that fails ends the program
(`src/concurrently.rs:20-39`). -/
def loadAll : Loaded Id → List (Id × Res (Index Id)) → Res (Loaded Id)
  | r, [] => .ok r
  | _, (_, .error f) :: _ => .error f
  | r, (id, .ok x) :: l =>
    match loadOne r id x with
    | .error f => .error f
    | .ok r' => loadAll r' l

/-- `BTreeMap::append` (`src/index.rs:250`): entries of the second map win. -/
def appendMap {K V : Type} [LinearOrder K] (a b : BMap K V) : BMap K V :=
  b.foldl (fun m e => BMap.insert e.1 e.2 m) a

/-- Stripping superseded indexes and merging the rest (`src/index.rs:239-259`). -/
def merge (r : Loaded Id) : Index Id :=
  let live := r.superseded.foldl (fun m i => BMap.erase i m) r.loaded
  ⟨r.superseded, live.foldl (fun m e => appendMap m e.2) []⟩

/-- `build_master_index` (`src/index.rs:192-260`). -/
def buildMaster (loads : List (Id × Res (Index Id))) : Res (Index Id) :=
  match loadAll ⟨[], []⟩ loads with
  | .error f => .error f
  | .ok r => .ok (merge r)

/-- The inner loop of the three lookup tables: for each blob of a manifest insert a value,
refusing repeats (`src/index.rs:273-284,297-302,314-318`). The tables are hash maps;
their iteration order is never used, so they are ordered maps here. -/
def tableManifest {V : Type} (f : Entry Id → V) : Manifest Id → BMap Id V → Res (BMap Id V)
  | [], t => .ok t
  | e :: m, t =>
    if (t.get? e.id).isSome then .error (.err "Duplicate blob")
    else tableManifest f m (BMap.insert e.id (f e) t)

/-- The outer loop of the three lookup tables. -/
def table {V : Type} (f : Id → Entry Id → V) : BMap Id (Manifest Id) → BMap Id V → Res (BMap Id V)
  | [], t => .ok t
  | (p, m) :: ps, t =>
    match tableManifest (f p) m t with
    | .error e => .error e
    | .ok t' => table f ps t'

/-- `blob_to_pack_map` (`src/index.rs:268-289`). -/
def blobToPack (x : Index Id) : Res (BMap Id Id) := table (fun p _ => p) x.packs []

/-- `blob_id_set` (`src/index.rs:292-306`). -/
def blobIds (x : Index Id) : Res (BMap Id Unit) := table (fun _ _ => ()) x.packs []

/-- `blob_to_size_map` (`src/index.rs:309-322`). -/
def blobToSize (x : Index Id) : Res (BMap Id Nat) := table (fun _ e => e.length) x.packs []

end Index
end Backpak
