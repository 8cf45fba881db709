import Verif.Model.Serde

/-!
# Objects as JSON (`serde_json::to_writer`, `src/prettify.rs`)

What serde's derives give `serde_json` for the types that `cat` prints, and the compact text it writes.
-/

namespace Backpak

/-- What `serde_json` is given to write. Numbers are integers. -/
inductive Json
  | null
  | num (i : Int)
  | str (b : Bytes)
  | arr (l : List Json)
  | obj (l : List (Bytes × Json))

namespace Json

/-- A digit of a hexadecimal number, lower case. -/
def hexDigit (n : Nat) : UInt8 := if n < 10 then UInt8.ofNat (48 + n) else UInt8.ofNat (87 + n)

/-- `format_escaped_str_contents` in `serde_json`: quotation marks, backslashes and control characters are
escaped, all other bytes are written as they are. -/
def escape (c : UInt8) : Bytes :=
  if c = 0x22 then [0x5c, 0x22]
  else if c = 0x5c then [0x5c, 0x5c]
  else if c = 0x08 then [0x5c, 0x62]
  else if c = 0x09 then [0x5c, 0x74]
  else if c = 0x0a then [0x5c, 0x6e]
  else if c = 0x0c then [0x5c, 0x66]
  else if c = 0x0d then [0x5c, 0x72]
  else if c.toNat < 0x20 then [0x5c, 0x75, 0x30, 0x30, hexDigit (c.toNat / 16), hexDigit (c.toNat % 16)]
  else [c]

/-- A string in quotation marks. -/
def quote (b : Bytes) : Bytes := 0x22 :: (b.flatMap escape ++ [0x22])

/-- A number in decimal. -/
def decimal (n : Nat) : Bytes :=
  if n < 10 then [UInt8.ofNat (48 + n)] else decimal (n / 10) ++ [UInt8.ofNat (48 + n % 10)]

/-- An integer. -/
def number : Int → Bytes
  | .ofNat n => decimal n
  | .negSucc n => 0x2d :: decimal (n + 1)

mutual

/-- `CompactFormatter` in `serde_json`: nothing between the tokens. -/
def print : Json → Bytes
  | .null => ascii "null"
  | .num i => number i
  | .str b => quote b
  | .arr l => 0x5b :: (items l ++ [0x5d])
  | .obj l => 0x7b :: (fields l ++ [0x7d])

/-- The items of an array. -/
def items : List Json → Bytes
  | [] => []
  | j :: l => print j ++ (if l.isEmpty then [] else [0x2c]) ++ items l

/-- The fields of an object. -/
def fields : List (Bytes × Json) → Bytes
  | [] => []
  | (k, j) :: l => quote k ++ 0x3a :: (print j ++ (if l.isEmpty then [] else [0x2c]) ++ fields l)

end

end Json

/-- How `jiff` prints times. -/
structure Clock where
  /-- A `Timestamp`, from nanoseconds. -/
  instant : Int → Bytes
  /-- A `Zoned`, from nanoseconds and zone. -/
  zoned : Int → Bytes → Bytes

namespace Pretty

open Json

variable (T : Clock)

/-- A field of a struct. -/
def fld (k : String) (v : Json) : Bytes × Json := (ascii k, v)

/-- `ObjectId::serialize` when prettifying (`src/hashing.rs:94-95`). -/
def oid (i : ObjectId) : Json := .str i.display

/-- `instant::serialize` (`src/prettify.rs:43-44`). -/
def instant (t : Int) : Json := .str (T.instant t)

/-- `instant_option::serialize` (`src/prettify.rs:67-68`). -/
def instantOption : Option Int → Json
  | none => .null
  | some t => instant T t

/-- `blob::Type` (`src/blob.rs:21-28`). -/
def kind : Kind → Json
  | .chunk => .str (ascii "chunk")
  | .tree => .str (ascii "tree")

/-- `PackManifestEntry` (`src/pack.rs:44-50`). -/
def entry (e : Entry ObjectId) : Json :=
  .obj [fld "type" (kind e.kind), fld "length" (.num e.length), fld "id" (oid e.id)]

/-- `PackManifest` (`src/pack.rs:52`). -/
def manifest (m : Manifest ObjectId) : Json := .arr (m.map entry)

/-- `Index` (`src/index.rs:53-57`). -/
def index (i : Index ObjectId) : Json :=
  .obj [fld "supersedes" (.arr (i.supersedes.map oid)),
    fld "packs" (.obj (i.packs.map fun p => (p.1.display, manifest p.2)))]

/-- The size, left out if there is none (`src/tree.rs:86,106`). -/
def sizeField : Option Nat → List (Bytes × Json)
  | none => []
  | some n => [fld "size" (.num n)]

/-- `NodeMetadata` (`src/tree.rs:83-127`). -/
def metadata : Meta → Json
  | .posix p => .obj ([fld "type" (.str (ascii "posix")), fld "mode" (.num p.mode)] ++ sizeField p.size ++
      [fld "uid" (.num p.uid), fld "gid" (.num p.gid), fld "atime" (instant T p.atime),
       fld "mtime" (instant T p.mtime)])
  | .windows w => .obj ([fld "type" (.str (ascii "windows")), fld "attributes" (.num w.attributes)] ++
      sizeField w.size ++
      [fld "creation_time" (instantOption T w.ctime), fld "access_time" (instantOption T w.atime),
       fld "write_time" (instantOption T w.mtime)])

/-- `NodeContents` (`src/tree.rs:42-55`). -/
def contents : Contents ObjectId → Bytes × Json
  | .file cs => fld "chunks" (.arr (cs.map oid))
  | .dir t => fld "tree" (oid t)
  | .link t => fld "symlink" (.str t)

/-- `Node` (`src/tree.rs:297-302`). -/
def node (n : Node ObjectId) : Json := .obj [contents n.contents, fld "metadata" (metadata T n.md)]

/-- `Tree` (`src/tree.rs:331`). -/
def tree (t : Tree ObjectId) : Json := .obj (t.map fun p => (p.1, node T p.2))

/-- `Snapshot` (`src/snapshot.rs:42-67`). -/
def snapshot (s : Snapshot ObjectId) : Json :=
  .obj [fld "time" (.str (T.zoned s.time s.tz)), fld "author" (.str s.author), fld "tags" (.arr (s.tags.map .str)),
    fld "paths" (.arr (s.paths.map fun p => .str (Serde.pathText p))), fld "tree" (oid s.tree)]

end Pretty

end Backpak
