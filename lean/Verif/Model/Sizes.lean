import Verif.Model.Source
import Verif.Model.Snapshots

/-!
# Size accounting (`src/tree.rs:486-608`, `src/ui/usage.rs`, `src/ui/snapshots.rs`)

Sums are natural numbers, not `u64`: to overflow, the sizes of blobs (`u32`) would have to come to
16 EiB.
-/

namespace Backpak

variable {Id : Type} [LinearOrder Id]

/-- `ForestSizes` (`src/tree.rs:484-500`). The two numbers for a file are bytes introduced and
bytes reused. -/
structure Sizes where
  trees : Nat := 0
  chunks : Nat := 0
  introduced : Nat := 0
  reused : Nat := 0
  perFile : List (Path × (Nat × Nat)) := []
deriving DecidableEq, Repr

/-- `AddAssign` (`src/tree.rs:503-511`). -/
def Sizes.add (a b : Sizes) : Sizes :=
  ⟨a.trees + b.trees, a.chunks + b.chunks, a.introduced + b.introduced, a.reused + b.reused, []⟩

/-- The loop over a file's chunks (`src/tree.rs:583-597`), over the visited blobs, and the bytes
introduced and reused. -/
def chunkSizes (sm : BMap Id Nat) : List Id → BSet Id × Nat × Nat → Res (BSet Id × Nat × Nat)
  | [], r => .ok r
  | c :: cs, (v, i, r) =>
    match sm.get? c with
    | none => .error (.err "Couldn't find chunk to get size")
    | some n =>
      if c ∈ v then chunkSizes sm cs (v, i, r + n)
      else chunkSizes sm cs (BSet.insert c v, i + n, r)

/-- `node_size` (`src/tree.rs:569-608`). `down` is `tree_size`. -/
def nodeSize (sm : BMap Id Nat) (down : Path → Id → BSet Id × Sizes → Res (BSet Id × Sizes)) (path : Path)
    (x : Node Id) (st : BSet Id × Sizes) : Res (BSet Id × Sizes) :=
  match x.contents with
  | .file cs =>
    match chunkSizes sm cs (st.1, 0, 0) with
    | .error e => .error e
    | .ok (v, i, r) =>
      .ok (v, { st.2 with introduced := st.2.introduced + i, reused := st.2.reused + r,
                          chunks := st.2.chunks + (i + r), perFile := st.2.perFile ++ [(path, (i, r))] })
  | .dir sub => down path sub st
  | .link _ => .ok st

/-- The loop of `tree_size` (`src/tree.rs:561-565`). -/
def nodeSizes (sm : BMap Id Nat) (down : Path → Id → BSet Id × Sizes → Res (BSet Id × Sizes)) (path : Path) :
    Tree Id → BSet Id × Sizes → Res (BSet Id × Sizes)
  | [], st => .ok st
  | (n, x) :: rest, st =>
    match nodeSize sm down (path ++ [n]) x st with
    | .error e => .error e
    | .ok st' => nodeSizes sm down path rest st'

/-- Counting a tree itself (`src/tree.rs:550-559`). -/
def countTree (id : Id) (n : Nat) (st : BSet Id × Sizes) : BSet Id × Sizes :=
  if id ∈ st.1 then (st.1, { st.2 with trees := st.2.trees + n, reused := st.2.reused + n })
  else (BSet.insert id st.1, { st.2 with trees := st.2.trees + n, introduced := st.2.introduced + n })

/-- `tree_size` (`src/tree.rs:536-567`). The number bounds the depth of recursion. -/
def treeSize (F : Forest Id) (sm : BMap Id Nat) : Nat → Path → Id → BSet Id × Sizes → Res (BSet Id × Sizes)
  | 0, _, _, _ => .error (.panic "stack overflow")
  | k + 1, path, id, st =>
    match F.get? id with
    | none => .error (.panic "Missing tree")
    | some t =>
      match sm.get? id with
      | none => .error (.err "Couldn't find tree to get size")
      | some n => nodeSizes sm (treeSize F sm k) path t (countTree id n st)

/-- `forest_sizes` (`src/tree.rs:517-534`). -/
def forestSizes (root : Id) (F : Forest Id) (sm : BMap Id Nat) (visited : BSet Id) : Res (BSet Id × Sizes) :=
  match treeSize F sm (F.length + 1) [] root (visited, {}) with
  | .error e => .error e
  | .ok (v, s) =>
    if s.trees + s.chunks = s.introduced + s.reused then .ok (v, s)
    else .error (.panic "assertion failed: tree_bytes + chunk_bytes == introduced + reused")

/-- The sizes of each snapshot in turn (`src/ui/snapshots.rs:196-223`), and all blobs visited. -/
def sizesEach (C : Codec Id) (src : Source Id) (sm : BMap Id Nat) :
    List (Snapshot Id) → Forest Id → BSet Id → Res (BSet Id × List Sizes)
  | [], _, v => .ok (v, [])
  | s :: rest, cache, v =>
    match forestFromRoot C src s.tree cache with
    | .error e => .error e
    | .ok (F, cache') =>
      match forestSizes s.tree F sm v with
      | .error e => .error e
      | .ok (v', z) =>
        match sizesEach C src sm rest cache' v' with
        | .error e => .error e
        | .ok (v'', zs) => .ok (v'', z :: zs)

/-- `snapshots --sizes` (`src/ui/snapshots.rs:175-223`), from opening the repository on: the sizes
shown for each snapshot. -/
def snapshotsSizes (C : Codec Id) (src : Source Id) (snaps : List (Snapshot Id)) : Res (List Sizes) :=
  match Index.blobToSize src.index with
  | .error e => .error e
  | .ok sm =>
    match sizesEach C src sm snaps (newTreeCache C) [] with
    | .error e => .error e
    | .ok (_, zs) => .ok zs

/-- The loop of `usage` (`src/ui/usage.rs:36-43`). -/
def usageLoop (C : Codec Id) (src : Source Id) (sm : BMap Id Nat) :
    List (Snapshot Id) → Forest Id → BSet Id → Sizes → Res (BSet Id × Sizes)
  | [], _, v, z => .ok (v, z)
  | s :: rest, cache, v, z =>
    match forestFromRoot C src s.tree cache with
    | .error e => .error e
    | .ok (F, cache') =>
      match forestSizes s.tree F sm v with
      | .error e => .error e
      | .ok (v', z') => usageLoop C src sm rest cache' v' (z.add z')

/-- What `usage` says about the data (`src/ui/usage.rs:10-76`): unique and reused bytes in
snapshots, and the bytes in packs that are not used by any (0 when there are none). -/
structure Usage where
  unique : Nat
  reused : Nat
  packed : Nat
  unused : Nat
deriving DecidableEq, Repr

/-- The size of all blobs in packs (`src/ui/usage.rs:58-62`). -/
def packedSize (x : Index Id) : Nat := (x.packs.map fun e => (e.2.map Entry.length).sum).sum

/-- `usage` (`src/ui/usage.rs:8-76`), from opening the repository on. -/
def usage (C : Codec Id) (src : Source Id) (snaps : List (Snapshot Id)) : Res Usage :=
  match Index.blobToSize src.index with
  | .error e => .error e
  | .ok sm =>
    match usageLoop C src sm snaps (newTreeCache C) [] {} with
    | .error e => .error e
    | .ok (_, z) =>
      .ok ⟨z.introduced, z.reused, packedSize src.index, packedSize src.index - z.introduced⟩

end Backpak
