import Verif.Model.Types
import Verif.Model.Cbor

/-!
# How each type maps to CBOR

What serde's derives (with the attributes in the source) produce and accept.
Unknown fields are ignored, duplicate fields are an error, missing fields are an
error unless defaulted. Two leniencies of serde are not modelled: structs given
as sequences, and IDs given as sequences of numbers or as text.
-/

namespace Backpak.Serde

open Cbor

/-- A text key or value. -/
def str (s : String) : Cbor := .text (ascii s)

/-- An integer. -/
def int (t : Int) : Cbor := if 0 ≤ t then .uint t.toNat else .nint (-1 - t).toNat

/-- Rust's `x as i64` for a wider integer: wrap modulo 2^64 (`src/prettify.rs:46`). -/
def asI64 (t : Int) : Int := (t + 2 ^ 63) % 2 ^ 64 - 2 ^ 63

/-- A timestamp as `instant::serialize` writes it (`src/prettify.rs:39-48`). -/
def instant (t : Int) : Cbor := int (asI64 t)

/-- `instant_option::serialize` (`src/prettify.rs:63-72`). -/
def instantOption : Option Int → Cbor
  | none => .null
  | some t => instant t

/-- `ObjectId::serialize` when not prettifying (`src/hashing.rs:97`). -/
def oid (i : ObjectId) : Cbor := .bytes i.digest

/-- `blob::Type` (`src/blob.rs:21-28`, lowercase names). -/
def kind : Kind → Cbor
  | .chunk => str "chunk"
  | .tree => str "tree"

/-- `PackManifestEntry` (`src/pack.rs:44-50`). -/
def entry (e : Entry ObjectId) : Cbor :=
  .map [str "type", kind e.kind, str "length", .uint e.length, str "id", oid e.id]

/-- `PackManifest` (`src/pack.rs:52`). -/
def manifest (m : Manifest ObjectId) : Cbor := .arr (m.map entry)

/-- `Index` (`src/index.rs:53-57`). -/
def index (i : Index ObjectId) : Cbor :=
  .map [str "supersedes", .arr (i.supersedes.map oid),
        str "packs", .map (i.packs.flatMap fun p => [oid p.1, manifest p.2])]

/-- `skip_serializing_if = "Option::is_none"` on the size (`src/tree.rs:86,106`). -/
def sizeField : Option Nat → List Cbor
  | none => []
  | some n => [str "size", .uint n]

/-- `NodeMetadata`, tagged with `type` (`src/tree.rs:83-127`). -/
def metadata : Meta → Cbor
  | .posix p => .map ([str "type", str "posix", str "mode", .uint p.mode] ++ sizeField p.size ++
      [str "uid", .uint p.uid, str "gid", .uint p.gid,
       str "atime", instant p.atime, str "mtime", instant p.mtime])
  | .windows w => .map ([str "type", str "windows", str "attributes", .uint w.attributes] ++
      sizeField w.size ++
      [str "creation_time", instantOption w.ctime, str "access_time", instantOption w.atime,
       str "write_time", instantOption w.mtime])

/-- `NodeContents` (`src/tree.rs:42-55`): the field name tells the variant. -/
def contents : Contents ObjectId → List Cbor
  | .file cs => [str "chunks", .arr (cs.map oid)]
  | .dir t => [str "tree", oid t]
  | .link t => [str "symlink", .text t]

/-- `Node` with flattened contents (`src/tree.rs:297-302`). -/
def node (n : Node ObjectId) : Cbor := .mapI (contents n.contents ++ [str "metadata", metadata n.md])

/-- `Tree` (`src/tree.rs:331`). -/
def tree (t : Tree ObjectId) : Cbor := .map (t.flatMap fun p => [.text p.1, node p.2])

/-- The text of a path: components joined by `/`. -/
def pathText : Path → Bytes
  | [] => []
  | [n] => n
  | n :: p => n ++ 0x2f :: pathText p

/-- `SnapshotV2` through `diskfmt` (`src/snapshot.rs:89-118`). Times whose
nanoseconds do not fit in 64 bits become CBOR big numbers in the code; the
model only covers those that fit. -/
def snapshot (s : Snapshot ObjectId) : Cbor :=
  .map ([str "time", int s.time, str "tz", .text s.tz, str "author", .text s.author] ++
    (if s.tags.isEmpty then [] else [str "tags", .arr (s.tags.map .text)]) ++
    [str "paths", .arr (s.paths.map fun p => .text (pathText p)), str "tree", oid s.tree])

/-! ## Reading -/

/-- Key/value pairs of a map whose keys are text. -/
def pairs : List Cbor → Option (List (Bytes × Cbor))
  | [] => some []
  | .text k :: v :: l => (pairs l).map ((k, v) :: ·)
  | _ => none

/-- The entries of a map with text keys. -/
def asFields : Cbor → Option (List (Bytes × Cbor))
  | .map l => pairs l
  | .mapI l => pairs l
  | _ => none

/-- The value of a field that may be missing; a duplicate is an error. -/
def field? (k : String) (fs : List (Bytes × Cbor)) : Option (Option Cbor) :=
  match fs.filter (fun p => p.1 = ascii k) with
  | [] => some none
  | [p] => some (some p.2)
  | _ => none

/-- The value of a required field. -/
def field (k : String) (fs : List (Bytes × Cbor)) : Option Cbor :=
  match field? k fs with
  | some (some v) => some v
  | _ => none

/-- Unsigned integer below `bound`. -/
def asUint (bound : Nat) : Cbor → Option Nat
  | .uint n => if n < bound then some n else none
  | _ => none

/-- Signed integer in `[-bound, bound)`. -/
def asInt (bound : Nat) : Cbor → Option Int
  | .uint n => if n < bound then some n else none
  | .nint n => if n < bound then some (-1 - n) else none
  | _ => none

/-- `ObjectId::deserialize` (`src/hashing.rs:102-117`). -/
def asOid : Cbor → Option ObjectId
  | .bytes b => if h : b.length = 28 then some ⟨b, h⟩ else none
  | _ => none

/-- A text string. -/
def asText : Cbor → Option Bytes
  | .text b => some b
  | _ => none

/-- The items of an array. -/
def asArr : Cbor → Option (List Cbor)
  | .arr l => some l
  | _ => none

/-- `blob::Type`. -/
def asKind : Cbor → Option Kind
  | .text b => if b = ascii "chunk" then some .chunk
      else if b = ascii "tree" then some .tree else none
  | _ => none

/-- `PackManifestEntry` (`src/pack.rs:44-50`): `length` is a `u32`. -/
def asEntry (v : Cbor) : Option (Entry ObjectId) := do
  let fs ← asFields v
  let k ← (← field "type" fs) |> asKind
  let n ← (← field "length" fs) |> asUint (2 ^ 32)
  let i ← (← field "id" fs) |> asOid
  pure ⟨k, n, i⟩

/-- `PackManifest`. -/
def asManifest (v : Cbor) : Option (Manifest ObjectId) := do (← asArr v).mapM asEntry

/-- Entries of a map from IDs to manifests. -/
def asPackEntries : List Cbor → Option (List (ObjectId × Manifest ObjectId))
  | [] => some []
  | k :: v :: l => do
    let k ← asOid k
    let v ← asManifest v
    let r ← asPackEntries l
    pure ((k, v) :: r)
  | _ => none

/-- The items of a map. -/
def asMapItems : Cbor → Option (List Cbor)
  | .map l => some l
  | .mapI l => some l
  | _ => none

/-- `Index` (`src/index.rs:53-57`). Reading a set or map inserts its items one by one. -/
def asIndex (v : Cbor) : Option (Index ObjectId) := do
  let fs ← asFields v
  let ss ← (← asArr (← field "supersedes" fs)).mapM asOid
  let ps ← asPackEntries (← asMapItems (← field "packs" fs))
  pure ⟨BSet.ofList ss, BMap.ofList ps⟩

/-- `instant::deserialize` (`src/prettify.rs:50-56`); every `i64` of nanoseconds is
a valid `Timestamp`. -/
def asInstant (v : Cbor) : Option Int := asInt (2 ^ 63) v

/-- `instant_option::deserialize` (`src/prettify.rs:74-82`). -/
def asInstantOption : Cbor → Option (Option Int)
  | .null => some none
  | v => (asInstant v).map some

/-- The optional, defaulted size. -/
def asSize (fs : List (Bytes × Cbor)) : Option (Option Nat) :=
  match field? "size" fs with
  | none => none
  | some none => some none
  | some (some .null) => some none
  | some (some v) => (asUint (2 ^ 64) v).map some

/-- `NodeMetadata` (`src/tree.rs:83-127`). -/
def asMetadata (v : Cbor) : Option Meta := do
  let fs ← asFields v
  let tag ← asText (← field "type" fs)
  let size ← asSize fs
  if tag = ascii "posix" then
    let mode ← asUint (2 ^ 32) (← field "mode" fs)
    let uid ← asUint (2 ^ 32) (← field "uid" fs)
    let gid ← asUint (2 ^ 32) (← field "gid" fs)
    let atime ← asInstant (← field "atime" fs)
    let mtime ← asInstant (← field "mtime" fs)
    pure (.posix ⟨mode, size, uid, gid, atime, mtime⟩)
  else if tag = ascii "windows" then
    let attributes ← asUint (2 ^ 32) (← field "attributes" fs)
    let ctime ← asInstantOption (← field "creation_time" fs)
    let atime ← asInstantOption (← field "access_time" fs)
    let mtime ← asInstantOption (← field "write_time" fs)
    pure (.windows ⟨attributes, size, ctime, atime, mtime⟩)
  else none

/-- The untagged `NodeContents` (`src/tree.rs:42-55`): variants are tried in order. -/
def asContents (fs : List (Bytes × Cbor)) : Option (Contents ObjectId) :=
  let f := do pure (Contents.file (← (← asArr (← field "chunks" fs)).mapM asOid))
  let d := do pure (Contents.dir (← asOid (← field "tree" fs)))
  let s := do pure (Contents.link (← asText (← field "symlink" fs)))
  f <|> d <|> s

/-- `Node` (`src/tree.rs:297-302`). -/
def asNode (v : Cbor) : Option (Node ObjectId) := do
  let fs ← asFields v
  let m ← asMetadata (← field "metadata" fs)
  let c ← asContents fs
  pure ⟨c, m⟩

/-- Entries of a tree. -/
def asTreeEntries : List Cbor → Option (List (Name × Node ObjectId))
  | [] => some []
  | k :: v :: l => do
    let k ← asText k
    let v ← asNode v
    let r ← asTreeEntries l
    pure ((k, v) :: r)
  | _ => none

/-- `Tree`. -/
def asTree (v : Cbor) : Option (Tree ObjectId) := do
  pure (BMap.ofList (← asTreeEntries (← asMapItems v)))

/-- Split at `/`. -/
def pathOfText : Bytes → Path
  | [] => [[]]
  | b :: bs =>
    if b = 0x2f then [] :: pathOfText bs
    else
      match pathOfText bs with
      | [] => [[b]]
      | n :: p => (b :: n) :: p

/-- `SnapshotV2` and `undiskfmt` (`src/snapshot.rs:89-128`). -/
def asSnapshot (v : Cbor) : Option (Snapshot ObjectId) := do
  let fs ← asFields v
  let time ← asInt (2 ^ 64) (← field "time" fs)
  let tz ← asText (← field "tz" fs)
  let author ← asText (← field "author" fs)
  let tags ← match field? "tags" fs with
    | none => none
    | some none => some []
    | some (some v) => do (← asArr v).mapM asText
  let paths ← (← asArr (← field "paths" fs)).mapM asText
  let tree ← asOid (← field "tree" fs)
  pure ⟨time, tz, author, BSet.ofList tags, BSet.ofList (paths.map pathOfText), tree⟩

/-- What the text of an old snapshot's time says: the instant and the zone (`deserialize_zoned`,
`src/snapshot.rs:70-81`: either of two ways to write times). -/
abbrev OldTime := Bytes → Option (Int × Bytes)

/-- A `Snapshot` as version 1 wrote it (`src/snapshot.rs:41-67`), its time being the text `t`. -/
def snapshotV1 (t : Bytes) (s : Snapshot ObjectId) : Cbor :=
  .map [str "time", .text t, str "author", .text s.author, str "tags", .arr (s.tags.map .text),
    str "paths", .arr (s.paths.map fun p => .text (pathText p)), str "tree", oid s.tree]

/-- `Snapshot` (`src/snapshot.rs:41-67`), which is what version 1 has. -/
def asSnapshotV1 (O : OldTime) (v : Cbor) : Option (Snapshot ObjectId) := do
  let fs ← asFields v
  let time ← O (← asText (← field "time" fs))
  let author ← asText (← field "author" fs)
  let tags ← (← asArr (← field "tags" fs)).mapM asText
  let paths ← (← asArr (← field "paths" fs)).mapM asText
  let tree ← asOid (← field "tree" fs)
  pure ⟨time.1, time.2, author, BSet.ofList tags, BSet.ofList (paths.map pathOfText), tree⟩

/-! ## Whole objects -/

/-- `ciborium::from_reader` into a type: decode one item, then interpret it;
returns the unread rest too. -/
def read {α : Type} (f : Cbor → Option α) (bs : Bytes) : Option (α × Bytes) :=
  match dec limit bs with
  | none => none
  | some (v, rest) => (f v).map fun a => (a, rest)

/-- The bytes hashed for a pack's ID (`src/pack.rs:64-70`). -/
def encManifest (m : Manifest ObjectId) : Bytes := enc (manifest m)
/-- Reading a manifest (`src/pack.rs:365`). -/
def decManifest : Bytes → Option (Manifest ObjectId × Bytes) := read asManifest
/-- The bytes hashed for an index's ID (`src/index.rs:181-183`). -/
def encIndex (i : Index ObjectId) : Bytes := enc (index i)
/-- Reading an index (`src/index.rs:331`). -/
def decIndex : Bytes → Option (Index ObjectId × Bytes) := read asIndex
/-- `tree::serialize_and_hash`'s bytes (`src/tree.rs:335-340`). -/
def encTree (t : Tree ObjectId) : Bytes := enc (tree t)
/-- Reading a tree (`src/pack.rs:470`). -/
def decTree : Bytes → Option (Tree ObjectId × Bytes) := read asTree
/-- The bytes hashed for a snapshot's ID (`src/snapshot.rs:136-138`). -/
def encSnapshot (s : Snapshot ObjectId) : Bytes := enc (snapshot s)
/-- Reading a version-2 snapshot (`src/snapshot.rs:178-181`). -/
def decSnapshot : Bytes → Option (Snapshot ObjectId × Bytes) := read asSnapshot

/-- Reading a version-1 snapshot (`src/snapshot.rs:178`). -/
def decSnapshotV1 (O : OldTime) : Bytes → Option (Snapshot ObjectId × Bytes) := read (asSnapshotV1 O)

/-- A snapshot file (`to_file`, `src/snapshot.rs:132-145`). -/
def snapshotFile (s : Snapshot ObjectId) : Bytes :=
  ascii "MKBAKSNP" ++ ascii "2" ++ encSnapshot s

/-- `snapshot::from_reader` (`src/snapshot.rs:171-187`): magic, version, then the
record. -/
def readSnapshotFile (O : OldTime) (bs : Bytes) : Option (Snapshot ObjectId × Bytes) :=
  if bs.take 8 = ascii "MKBAKSNP" then
    match bs.drop 8 with
    | v :: rest => if v = 0x31 then decSnapshotV1 O rest else if v = 0x32 then decSnapshot rest else none
    | [] => none
  else none

/-! ## What can be written faithfully -/

/-- Fields of a manifest entry fit their widths. -/
def OkManifest (m : Manifest ObjectId) : Prop := m.length < 2 ^ 64 ∧ ∀ e ∈ m, e.length < 2 ^ 32

/-- An index as the program builds them: ordered set and map, sizes in range. -/
structure OkIndex (i : Index ObjectId) : Prop where
  sup : BSet.Sorted i.supersedes
  sup_len : i.supersedes.length < 2 ^ 64
  packs : BMap.Sorted i.packs
  packs_len : i.packs.length < 2 ^ 64
  manifests : ∀ p ∈ i.packs, OkManifest p.2

/-- A timestamp in the range of 64-bit nanoseconds (years 1677 to 2262). -/
def InI64 (t : Int) : Prop := -2 ^ 63 ≤ t ∧ t < 2 ^ 63

/-- Metadata fields fit their widths and timestamps are in range. -/
def OkMeta : Meta → Prop
  | .posix p => p.mode < 2 ^ 32 ∧ p.uid < 2 ^ 32 ∧ p.gid < 2 ^ 32 ∧
      (∀ n, p.size = some n → n < 2 ^ 64) ∧ InI64 p.atime ∧ InI64 p.mtime
  | .windows w => w.attributes < 2 ^ 32 ∧ (∀ n, w.size = some n → n < 2 ^ 64) ∧
      (∀ t, w.ctime = some t → InI64 t) ∧ (∀ t, w.atime = some t → InI64 t) ∧
      (∀ t, w.mtime = some t → InI64 t)

/-- Lengths of contents fit in 64 bits. -/
def OkContents {Id : Type} : Contents Id → Prop
  | .file cs => cs.length < 2 ^ 64
  | .dir _ => True
  | .link t => t.length < 2 ^ 64

/-- A tree as the program builds them. -/
structure OkTree {Id : Type} (t : Tree Id) : Prop where
  sorted : BMap.Sorted t
  len : t.length < 2 ^ 64
  names : ∀ p ∈ t, p.1.length < 2 ^ 64
  contents : ∀ p ∈ t, OkContents p.2.contents
  mds : ∀ p ∈ t, OkMeta p.2.md

/-- A path that its text determines: at least one component, none containing `/`. -/
def OkPath (p : Path) : Prop := p ≠ [] ∧ ∀ n ∈ p, 0x2f ∉ n

/-- A snapshot as the program builds them. -/
structure OkSnapshot (s : Snapshot ObjectId) : Prop where
  time : -2 ^ 64 ≤ s.time ∧ s.time < 2 ^ 64
  tz : s.tz.length < 2 ^ 64
  author : s.author.length < 2 ^ 64
  tags : BSet.Sorted s.tags
  tags_len : s.tags.length < 2 ^ 64
  tag_len : ∀ t ∈ s.tags, t.length < 2 ^ 64
  paths : BSet.Sorted s.paths
  paths_len : s.paths.length < 2 ^ 64
  path_ok : ∀ p ∈ s.paths, OkPath p ∧ (pathText p).length < 2 ^ 64

end Backpak.Serde
