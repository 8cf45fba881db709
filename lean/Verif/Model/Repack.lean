import Verif.Model.Walk
import Verif.Model.ChunkCache
import Verif.Model.Snapshots

/-!
# Repacking blobs (`src/repack.rs`)

Used by `prune` and `copy`.
-/

namespace Backpak

variable {Id : Type} [LinearOrder Id]

/-- What a repacking walk keeps: the IDs known to be packed, the blobs sent so far, and the chunk
reader. -/
abbrev Repacking (Id : Type) := Sends Id × ReaderState Id

/-- The chunks of one file (`src/repack.rs:189-197`, `repack_chunk`, `src/repack.rs:254-268`). A
chunk that is already packed is only looked up, for its size, which is then counted. -/
def repackChunks (C : Codec Id) (src : Source Id) (env : CacheEnv Id) :
    List Id → Repacking Id → Res (Repacking Id)
  | [], st => .ok st
  | c :: cs, (s, r) =>
    if c ∈ s.packed then
      match blobSize src c with
      | .error e => .error e
      | .ok _ => repackChunks C src env cs (s, r)
    else
      match readBlob C.hash src env r c with
      | .error e => .error e
      | .ok (x, r') => repackChunks C src env cs (offer s ⟨x, c, .chunk⟩, r')

/-- The new node for a node (`src/repack.rs:178-226`). `down` is the recursive call. -/
def repackNode (C : Codec Id) (src : Source Id) (env : CacheEnv Id)
    (down : Path → Id → Repacking Id → Res (Id × Repacking Id)) (path : Path) (x : Node Id)
    (st : Repacking Id) : Res (Node Id × Repacking Id) :=
  match x.contents with
  | .file cs => (repackChunks C src env cs st).map (fun st' => (x, st'))
  | .link _ => .ok (x, st)
  | .dir sub => (down path sub st).map (fun r => (⟨.dir r.1, x.md⟩, r.2))

/-- The loop over the nodes of a tree (`src/repack.rs:165-227`). `down` is the recursive call;
`acc` is the new tree so far. -/
def repackNodes (C : Codec Id) (src : Source Id) (env : CacheEnv Id) (filter : Path → Bool)
    (down : Path → Id → Repacking Id → Res (Id × Repacking Id)) (path : Path) :
    Tree Id → Tree Id → Repacking Id → Res (Tree Id × Repacking Id)
  | [], acc, st => .ok (acc, st)
  | (n, x) :: rest, acc, st =>
    if filter (path ++ [n]) = false then repackNodes C src env filter down path rest acc st
    else
      match repackNode C src env down (path ++ [n]) x st with
      | .error e => .error e
      | .ok (y, st') =>
        if (BMap.get? acc n).isSome then
          .error (.panic "assertion failed: new_tree.insert(path.clone(), new_node).is_none()")
        else repackNodes C src env filter down path rest (BMap.insert n y acc) st'

/-- `walk_tree` (`src/repack.rs:133-252`). Every new tree is offered, the empty one too. The first
number bounds the depth of recursion; `repackTree_ok` shows the bound used is never hit. -/
def repackTree (C : Codec Id) (src : Source Id) (env : CacheEnv Id) (filter : Path → Bool)
    (F : Forest Id) : Nat → Path → Id → Repacking Id → Res (Id × Repacking Id)
  | 0, _, _, _ => .error (.panic "stack overflow")
  | k + 1, path, id, st =>
    match F.get? id with
    | none => .error (.panic "Missing tree")
    | some t =>
      match repackNodes C src env filter (repackTree C src env filter F k) path t [] st with
      | .error e => .error e
      | .ok (t', (s, r)) =>
        let bytes := C.encTree t'
        .ok (C.hash bytes, (offer s ⟨bytes, C.hash bytes, .tree⟩, r))

/-- `load_forests` (`src/repack.rs:28-49`), from a given tree cache. -/
def loadForests (C : Codec Id) (src : Source Id) :
    Forest Id → List (Snap Id) → Res (List (Snap Id × Forest Id))
  | _, [] => .ok []
  | cache, s :: rest =>
    match forestFromRoot C src s.1.tree cache with
    | .error e => .error e
    | .ok (F, cache') =>
      match loadForests C src cache' rest with
      | .error e => .error e
      | .ok l => .ok ((s, F) :: l)

/-- `walk_snapshots` and `walk_snapshot` (`src/repack.rs:70-131`): the new snapshots. -/
def walkSnapshots (C : Codec Id) (src : Source Id) (env : CacheEnv Id) (filter : Path → Bool) :
    List (Snap Id × Forest Id) → Repacking Id → Res (List (Snapshot Id) × Repacking Id)
  | [], st => .ok ([], st)
  | (s, F) :: rest, st =>
    match repackTree C src env filter F (F.length + 1) [] s.1.tree st with
    | .error e => .error e
    | .ok (root, st') =>
      match walkSnapshots C src env filter rest st' with
      | .error e => .error e
      | .ok (l, st'') => .ok ({ s.1 with tree := root } :: l, st'')

end Backpak
