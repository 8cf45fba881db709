import Verif.Model.Index
import Verif.Model.Pack

/-!
# The repository and the working directory

At this level a pack file is the list of blobs written to it; C06 shows that every reader
gets exactly those back from the file's bytes.
-/

namespace Backpak

/-- The contents of a pack file: its blobs in order (`src/pack.rs:211-300`). -/
abbrev Pack (Id : Type) := List (Blob Id)

/-- The objects of a backend by kind (`src/backend.rs:435-444`). -/
structure Repo (Id : Type) where
  packs : BMap Id (Pack Id)
  indexes : BMap Id (Index Id)
  snapshots : BMap Id (Snapshot Id)
deriving DecidableEq, Repr

/-- The files a command leaves in its working directory: `backpak-wip.index`
(`src/index.rs:47`), `<id>.pack` (`src/pack.rs:288-291`) and `<id>.index`
(`src/index.rs:126-135`). Temporary files, which nothing reads, are left out. -/
structure Cwd (Id : Type) where
  wip : Option (Index Id)
  packs : BMap Id (Pack Id)
  indexes : BMap Id (Index Id)
deriving DecidableEq, Repr

/-- Everything on disk. -/
structure World (Id : Type) where
  repo : Repo Id
  cwd : Cwd Id
deriving DecidableEq, Repr

/-- How objects are named: the hash of their encoding (`src/pack.rs:266`,
`src/index.rs:173-190`, `src/snapshot.rs:132-150`). -/
structure Ids (Id : Type) where
  packId : Manifest Id → Id
  indexId : Index Id → Id
  snapId : Snapshot Id → Id

end Backpak
