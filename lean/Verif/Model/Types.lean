import Verif.Model.Hashing

/-!
# Data types shared by the whole model

Everything is parameterised over the type `Id` of object IDs; the on-disk
encodings (`Verif.Model.Serde`) use `Id := ObjectId`.
-/

namespace Backpak

/-- `blob::Type` (`src/blob.rs:21-28`). -/
inductive Kind
  | chunk
  | tree
deriving DecidableEq, Repr

/-- `blob::Blob` (`src/blob.rs:11-19`). The two kinds of buffer that can hold
the bytes (`Contents`, `src/blob.rs:45-49`) are not distinguished. -/
structure Blob (Id : Type) where
  data : Bytes
  id : Id
  kind : Kind
deriving DecidableEq, Repr

/-- `pack::PackManifestEntry` (`src/pack.rs:44-50`). `length` is a `u32` in the
code; the bound appears as a hypothesis where the encoding needs it. -/
structure Entry (Id : Type) where
  kind : Kind
  length : Nat
  id : Id
deriving DecidableEq, Repr

/-- `pack::PackManifest` (`src/pack.rs:52`). -/
abbrev Manifest (Id : Type) := List (Entry Id)

/-- `index::Index` (`src/index.rs:53-57`). -/
structure Index (Id : Type) where
  supersedes : BSet Id
  packs : BMap Id (Manifest Id)
deriving DecidableEq, Repr

/-- `Index::default()` (`src/index.rs:53`). -/
def Index.empty {Id : Type} : Index Id := ⟨[], []⟩

/-- `Index::is_empty` (`src/index.rs:59-64`). -/
def Index.isEmpty {Id : Type} (i : Index Id) : Bool := i.supersedes.isEmpty && i.packs.isEmpty

/-- A file name: the UTF-8 bytes of one path component (`Utf8PathBuf` in the
code). That the bytes are valid UTF-8 is not represented. -/
abbrev Name := Bytes

/-- A path as its components; an absolute path starts with the empty name
(the root component), so component-wise order is list order. -/
abbrev Path := List Name

/-- `tree::NodeContents` (`src/tree.rs:42-55`). -/
inductive Contents (Id : Type)
  | file (chunks : List Id)
  | dir (subtree : Id)
  | link (target : Bytes)
deriving DecidableEq, Repr

/-- `tree::PosixMetadata` (`src/tree.rs:83-100`). Timestamps are nanoseconds
since the epoch. -/
structure PosixMeta where
  mode : Nat
  size : Option Nat
  uid : Nat
  gid : Nat
  atime : Int
  mtime : Int
deriving DecidableEq, Repr

/-- `tree::WindowsMetadata` (`src/tree.rs:104-119`). -/
structure WindowsMeta where
  attributes : Nat
  size : Option Nat
  ctime : Option Int
  atime : Option Int
  mtime : Option Int
deriving DecidableEq, Repr

/-- `tree::NodeMetadata` (`src/tree.rs:122-127`). -/
inductive Meta
  | posix (p : PosixMeta)
  | windows (w : WindowsMeta)
deriving DecidableEq, Repr

/-- `tree::Node` (`src/tree.rs:297-302`). -/
structure Node (Id : Type) where
  contents : Contents Id
  md : Meta
deriving DecidableEq, Repr

/-- `tree::Tree` (`src/tree.rs:331`). -/
abbrev Tree (Id : Type) := BMap Name (Node Id)

/-- `snapshot::Snapshot` (`src/snapshot.rs:42-67`). The zoned time is an instant
(nanoseconds since the epoch) plus the zone's text. -/
structure Snapshot (Id : Type) where
  time : Int
  tz : Bytes
  author : Bytes
  tags : BSet Bytes
  paths : BSet Path
  tree : Id
deriving DecidableEq, Repr

/-- `tree::NodeType` (`src/tree.rs:160-166`). -/
inductive NodeType
  | file
  | dir
  | link
  | unsupported (bits : Nat)
deriving DecidableEq, Repr

/-- `posix_kind` (`src/tree.rs:170-180`): `mode & 0o170000`. -/
def posixKind (mode : Nat) : NodeType :=
  let t := mode &&& 0o170000
  if t = 0o120000 then .link
  else if t = 0o040000 then .dir
  else if t = 0o100000 then .file
  else .unsupported t

/-- `windows_kind` (`src/tree.rs:182-191`). -/
def windowsKind (attributes : Nat) : NodeType :=
  if attributes &&& 0x400 ≠ 0 then .link
  else if attributes &&& 0x10 ≠ 0 then .dir
  else .file

/-- `NodeMetadata::kind` (`src/tree.rs:194-199`). -/
def Meta.kind : Meta → NodeType
  | .posix p => posixKind p.mode
  | .windows w => windowsKind w.attributes

/-- `NodeMetadata::size` (`src/tree.rs:206-211`). -/
def Meta.size : Meta → Option Nat
  | .posix p => p.size
  | .windows w => w.size

/-- `NodeMetadata::modification_time` (`src/tree.rs:213-218`). -/
def Meta.mtime : Meta → Option Int
  | .posix p => some p.mtime
  | .windows w => w.mtime

/-- `NodeMetadata::access_time` (`src/tree.rs:220-225`). -/
def Meta.atime : Meta → Option Int
  | .posix p => some p.atime
  | .windows w => w.atime

/-- The kind of a node's contents, ignoring metadata. -/
def Contents.kind {Id : Type} : Contents Id → NodeType
  | .file _ => .file
  | .dir _ => .dir
  | .link _ => .link

/-- `Node::kind` (`src/tree.rs:304-327`): asserts that contents and metadata
agree. -/
def Node.kind {Id : Type} (n : Node Id) : Res NodeType :=
  if n.md.kind = n.contents.kind then .ok n.contents.kind
  else .error (.panic "node contents and metadata disagree")

end Backpak
