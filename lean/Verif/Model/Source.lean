import Verif.Model.Repo

/-!
# Reading blobs back: the tree cache, forests and the chunk cache

`src/tree.rs:349-462`, `src/read.rs`. The hash and the tree encoding are parameters
(`Codec`); `Codec.real` (in `Verif.Spec.Codec`) is the program's own encoding.
-/

namespace Backpak

/-- The hash and the encoding of trees. -/
structure Codec (Id : Type) where
  hash : Bytes → Id
  encTree : Tree Id → Bytes
  decTree : Bytes → Option (Tree Id × Bytes)
  /-- What the program writes it reads back (C04). -/
  dec_enc : ∀ t, Serde.OkTree t → decTree (encTree t) = some (t, [])
  /-- Every tree takes some bytes (a map's header). -/
  enc_ne : ∀ t, encTree t ≠ []

/-- `EMPTY_ID` (`src/tree.rs:342-343`). -/
def Codec.emptyId {Id : Type} (C : Codec Id) : Id := C.hash (C.encTree [])

/-- A forest (`src/tree.rs:355`). It is a hash map whose order is never used. -/
abbrev Forest (Id : Type) := BMap Id (Tree Id)

/-- What readers of blobs are given: the master index, the blob lookup table, and packs by ID.
`read` is `CachedBackend::read_pack`, the magic bytes check and the decompressor
(`src/read.rs:180-190`, `src/pack.rs:440-442`). -/
structure Source (Id : Type) where
  index : Index Id
  blobMap : BMap Id Id
  read : Id → Res Stream

variable {Id : Type} [LinearOrder Id]

/-- `tree::Cache::new` (`src/tree.rs:379-394`). -/
def newTreeCache (C : Codec Id) : Forest Id := [(C.emptyId, [])]

/-- `tree::Cache::read` (`src/tree.rs:398-425`). -/
def treeRead (C : Codec Id) (src : Source Id) (cache : Forest Id) (id : Id) :
    Res (Tree Id × Forest Id) :=
  match cache.get? id with
  | some t => .ok (t, cache)
  | none =>
    match src.blobMap.get? id with
    | none => .error (.err "No pack contains tree")
    | some p =>
      match src.read p with
      | .error e => .error e
      | .ok s =>
        match src.index.packs.get? p with
        | none => .error (.panic "Pack ID in blob -> pack map but not the index")
        | some m =>
          match Pack.appendLoop C.hash C.decTree m s cache with
          | .error e => .error e
          | .ok cache' =>
            match cache'.get? id with
            | none => .error (.err "Tree missing from pack")
            | some t => .ok (t, cache')

/-- Do something for every subdirectory of a tree in turn (`src/tree.rs:451-458`). -/
def forSubtrees {S : Type} (f : Id → S → Res S) : Tree Id → S → Res S
  | [], s => .ok s
  | (_, ⟨.dir sub, _⟩) :: t, s =>
    match f sub s with
    | .error e => .error e
    | .ok s' => forSubtrees f t s'
  | (_, ⟨.file _, _⟩) :: t, s => forSubtrees f t s
  | (_, ⟨.link _, _⟩) :: t, s => forSubtrees f t s

/-- `append_tree` (`src/tree.rs:437-462`). `stack` is the set of trees being appended; it is
the same after a call as before, so it is passed down only. The first argument bounds the
depth of recursion; `C23.never_overflows` shows the bound used is never hit. -/
def appendTree (C : Codec Id) (src : Source Id) :
    Nat → List Id → Id → Forest Id × Forest Id → Res (Forest Id × Forest Id)
  | 0, _, _, _ => .error (.panic "stack overflow")
  | n + 1, stack, id, (forest, cache) =>
    if id ∈ stack then .error (.err "Cycle detected!")
    else
      match treeRead C src cache id with
      | .error e => .error e
      | .ok (t, cache') =>
        forSubtrees (appendTree C src n (id :: stack)) t (BMap.insert id t forest, cache')

/-- `forest_from_root` (`src/tree.rs:429-435`): the forest, and the cache for the next call. -/
def forestFromRoot (C : Codec Id) (src : Source Id) (root : Id) (cache : Forest Id) :
    Res (Forest Id × Forest Id) :=
  appendTree C src (src.blobMap.length + cache.length + 1) [] root ([], cache)

/-- `chunks_in_node` (`src/tree.rs:478-483`). -/
def chunksInNode (n : Node Id) : List Id :=
  match n.contents with
  | .file cs => cs
  | .dir _ => []
  | .link _ => []

/-- `chunks_in_tree` (`src/tree.rs:465-474`): a set, here the list it is collected from. -/
def chunksInTree (t : Tree Id) : List Id := t.flatMap (fun e => chunksInNode e.2)

end Backpak
