import Verif.Model.Repack
import Verif.Model.Backup

/-!
# The filter-snapshot command (`src/ui/filter_snapshot.rs`)
-/

namespace Backpak

open Pipeline

variable {Id : Type} [LinearOrder Id]

/-- The new node for a node (`src/ui/filter_snapshot.rs:196-229`): a file's chunks must all be
packed. `down` is the recursive call. -/
def filterWalkNode (down : Path → Id → Sends Id → Res (Id × Sends Id)) (path : Path) (x : Node Id)
    (s : Sends Id) : Res (Node Id × Sends Id) :=
  match x.contents with
  | .file cs =>
    if cs.all (fun c => decide (c ∈ s.packed)) then .ok (x, s) else .error (.err "Missing chunk")
  | .link _ => .ok (x, s)
  | .dir sub => (down path sub s).map (fun r => (⟨.dir r.1, x.md⟩, r.2))

/-- The loop over the nodes of a tree (`src/ui/filter_snapshot.rs:187-231`). `acc` is the new tree
so far. -/
def filterWalkNodes (filter : Path → Bool) (down : Path → Id → Sends Id → Res (Id × Sends Id))
    (path : Path) : Tree Id → Tree Id → Sends Id → Res (Tree Id × Sends Id)
  | [], acc, s => .ok (acc, s)
  | (n, x) :: rest, acc, s =>
    if filter (path ++ [n]) = false then filterWalkNodes filter down path rest acc s
    else
      match filterWalkNode down (path ++ [n]) x s with
      | .error e => .error e
      | .ok (y, s') =>
        if (BMap.get? acc n).isSome then
          .error (.panic "assertion failed: new_tree.insert(path.clone(), new_node).is_none()")
        else filterWalkNodes filter down path rest (BMap.insert n y acc) s'

/-- `walk_tree` (`src/ui/filter_snapshot.rs:163-246`). The first number bounds the depth of
recursion; `filterWalk_ok` shows the bound used is never hit. -/
def filterWalk (C : Codec Id) (filter : Path → Bool) (F : Forest Id) :
    Nat → Path → Id → Sends Id → Res (Id × Sends Id)
  | 0, _, _, _ => .error (.panic "stack overflow")
  | k + 1, path, id, s =>
    match F.get? id with
    | none => .error (.panic "Missing tree")
    | some t =>
      match filterWalkNodes filter (filterWalk C filter F k) path t [] s with
      | .error e => .error e
      | .ok (t', s') =>
        let bytes := C.encTree t'
        .ok (C.hash bytes, offer s' ⟨bytes, C.hash bytes, .tree⟩)

/-- What filter-snapshot is given besides the snapshot and the skips
(`src/ui/filter_snapshot.rs:19-48`). -/
structure FilterArgs where
  dryRun : Bool
  keepMetadata : Bool
  /-- `--author`, or else the host's name. -/
  author : Bytes
  tags : BSet Bytes
  now : Int
  tz : Bytes

/-- The new snapshot, from the target and its new root (`src/ui/filter_snapshot.rs:110-125`). -/
def filteredSnap (a : FilterArgs) (target : Snapshot Id) (root : Id) : Snapshot Id :=
  if a.keepMetadata then { target with tree := root }
  else { target with tree := root, author := a.author, time := a.now, tz := a.tz, tags := a.tags }

/-- The command up to starting its threads, and what it then does
(`src/ui/filter_snapshot.rs:45-130`). It starts from an empty index whatever an interrupted command
left. That `--keep-metadata` excludes `--author` and `--tag`, and progress, are left out; finding
the target is `findSnap`. The new snapshot compared with the target differs from it in the tree
alone. -/
def filterPlan (C : Codec Id) (src : Source Id) (target : Snap Id) (filter : Path → Bool)
    (a : FilterArgs) : Res (Plan Id) :=
  match forestFromRoot C src target.1.tree (newTreeCache C) with
  | .error e => .error e
  | .ok (F, _) =>
    match Index.blobIds src.index with
    | .error e => .error e
    | .ok known =>
      match filterWalk C filter F (F.length + 1) [] target.1.tree ⟨BMap.keys known, []⟩ with
      | .error e => .error e
      | .ok (root, s) =>
        .ok ⟨Index.empty, s.sent.map Op.send,
          .ok (if root = target.1.tree then []
            else if a.dryRun then [] else [.putSnap (filteredSnap a target.1 root)])⟩

end Backpak
