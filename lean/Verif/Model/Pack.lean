import Verif.Model.Serde

/-!
# Pack files and every way of reading them

`src/pack.rs`. The bodies of zstd and SHA-224 are not modelled: the hash is a
parameter `H`, and zstd is a structure of a "these bytes are a frame for that
content" relation plus a stream reader with the two laws the code relies on.
-/

namespace Backpak

/-- What a decompressing reader yields: some bytes, after which it either reports
end of file (`bad = false`) or an error (`bad = true`). -/
structure Stream where
  data : Bytes
  bad : Bool
deriving DecidableEq, Repr

/-- `reader.take(n)` read to its end (`src/pack.rs:314-316,412-415,427,459`,
`src/read.rs:206-208`): `n` bytes if there are that many; otherwise all there is,
unless the stream ends in an error. -/
def Stream.take (s : Stream) (n : Nat) : Res (Bytes × Stream) :=
  if n ≤ s.data.length then .ok (s.data.take n, ⟨s.data.drop n, s.bad⟩)
  else if s.bad then .error (.err "decompression")
  else .ok (s.data, ⟨[], false⟩)

/-- `ciborium::from_reader` on `reader.take(n)` (`src/pack.rs:464-467`): the item,
the bytes consumed (which is what `HashingReader` has hashed, `src/hashing.rs:139-145`),
and the stream after them. -/
def Stream.item {α : Type} (dec : Bytes → Option (α × Bytes)) (s : Stream) (n : Nat) :
    Res (α × Bytes × Stream) :=
  match dec (s.data.take n) with
  | none => .error (.err "CBOR decoding failed")
  | some (a, rest) =>
    let c := (s.data.take n).length - rest.length
    .ok (a, s.data.take c, ⟨s.data.drop c, s.bad⟩)

/-- zstd. `Frame z x`: the compressor may output `z` for content `x` (however it cuts
blocks, flushes or threads). `stream` is `zstd::stream::read::Decoder`, which goes on
to further frames after the first. -/
structure Zstd where
  Frame : Bytes → Bytes → Prop
  stream : Bytes → Stream
  /-- Every content has a frame. -/
  frame_exists : ∀ x, ∃ z, Frame z x
  /-- Reading a frame yields its content first, whatever follows it in the file. -/
  stream_prefix : ∀ z x rest, Frame z x → x <+: (stream (z ++ rest)).data
  /-- Reading exactly one frame yields exactly its content. -/
  stream_whole : ∀ z x, Frame z x → stream z = ⟨x, false⟩

namespace Pack

/-- `MAGIC_BYTES` (`src/pack.rs:40`). -/
def magic : Bytes := ascii "MKBAKPAK1"

/-- `file_util::check_magic` (`src/file_util.rs:14-24`, `src/pack.rs:486-488`): what follows. -/
def checkMagic (file : Bytes) : Res Bytes :=
  if file.length < magic.length then .error (.err "failed to fill whole buffer")
  else if file.take magic.length = magic then .ok (file.drop magic.length)
  else .error (.err "Wrong magic bytes for packfile")

/-- The manifest entry `write_blob` pushes (`src/pack.rs:237-241`). -/
def entryOf {Id : Type} (b : Blob Id) : Entry Id := ⟨b.kind, b.data.length, b.id⟩

/-- The manifest of blobs written in order. -/
def manifestOf {Id : Type} (bs : List (Blob Id)) : Manifest Id := bs.map entryOf

/-- The uncompressed contents of blobs written in order. -/
def contentOf {Id : Type} (bs : List (Blob Id)) : Bytes := (bs.map Blob.data).flatten

/-- The file `PackfileWriter` leaves (`src/pack.rs:211-300`) for blobs `bs`, when the
compressor outputs `zb` for the blobs and `zm` for the manifest. -/
def file (zb zm : Bytes) : Bytes := magic ++ zb ++ zm ++ Cbor.be 4 zm.length

/-- `file` is a possible output of the packer for `bs` (`src/pack.rs:211-300`). The
compressed manifest's length is cast to 32 bits (`src/pack.rs:282`). -/
def WritesFile (Z : Zstd) (bs : List (Blob ObjectId)) (f : Bytes) : Prop :=
  ∃ zb zm, Z.Frame zb (contentOf bs) ∧ Z.Frame zm (Serde.encManifest (manifestOf bs)) ∧
    zm.length < 2 ^ 32 ∧ f = file zb zm

section Readers

variable {Id : Type} [LinearOrder Id] (H : Bytes → Id)

/-- The blob loop of `verify` (`src/pack.rs:313-326`). -/
def verifyBlobs : Manifest Id → Stream → Res Unit
  | [], _ => .ok ()
  | e :: m, s =>
    match s.take e.length with
    | .error f => .error f
    | .ok (bs, s') =>
      if e.id = H bs then verifyBlobs m s'
      else .error (.err "Calculated hash of blob doesn't match its ID")

/-- The loop of `extract_blob` (`src/pack.rs:410-431`). -/
def extractLoop (id : Id) : Manifest Id → Stream → Res (Entry Id × Bytes)
  | [], _ => .error (.panic "unreachable")
  | e :: m, s =>
    match s.take e.length with
    | .error f => .error f
    | .ok (bs, s') =>
      if e.id = id then
        if id = H bs then .ok (e, bs)
        else .error (.err "Calculated hash of blob doesn't match ID")
      else extractLoop id m s'

/-- The loop of `append_to_forest` (`src/pack.rs:444-482`). -/
def appendLoop (decTree : Bytes → Option (Tree Id × Bytes)) :
    Manifest Id → Stream → BMap Id (Tree Id) → Res (BMap Id (Tree Id))
  | [], _, forest => .ok forest
  | e :: m, s, forest =>
    if e.kind ≠ .tree ∨ (forest.get? e.id).isSome then
      match s.take e.length with
      | .error f => .error f
      | .ok (bs, s') =>
        if bs.length = e.length then appendLoop decTree m s' forest
        else .error (.panic "assertion `left == right` failed")
    else
      match s.item decTree e.length with
      | .error f => .error f
      | .ok (t, used, s') =>
        if e.id = H used then appendLoop decTree m s' (BMap.insert e.id t forest)
        else .error (.err "Calculated hash of tree doesn't match its ID")

/-- The loop of `ChunkReader::load_pack` (`src/read.rs:192-219`): what it inserts into
the chunk cache, in order, and the number of bytes it counts. Entries that are not
chunks are skipped without reading past them. -/
def loadLoop : Manifest Id → Stream → Res (List (Id × Bytes) × Nat)
  | [], _ => .ok ([], 0)
  | e :: m, s =>
    if e.kind ≠ .chunk then loadLoop m s
    else
      match s.take e.length with
      | .error f => .error f
      | .ok (bs, s') =>
        if e.id = H bs then
          match loadLoop m s' with
          | .error f => .error f
          | .ok (l, n) => .ok ((e.id, bs) :: l, e.length + n)
        else .error (.err "Calculated hash of blob doesn't match ID")

end Readers

section Files

variable (Z : Zstd) (H : Bytes → ObjectId)

/-- `manifest_from_reader` (`src/pack.rs:348-369`). -/
def manifestFromReader (f : Bytes) : Res (Manifest ObjectId × ObjectId) :=
  if f.length < 4 then .error (.err "seek")
  else
    let n := ofDigits 256 ((f.drop (f.length - 4)).map UInt8.toNat)
    if f.length < n + 4 then .error (.err "seek")
    else
      let s := Z.stream ((f.drop (f.length - (n + 4))).take n)
      match s.item Serde.decManifest s.data.length with
      | .error e => .error e
      | .ok (m, used, _) => .ok (m, H used)

/-- `pack::verify` (`src/pack.rs:304-342`). -/
def verify (f : Bytes) (m : Manifest ObjectId) : Res Unit :=
  match checkMagic f with
  | .error e => .error e
  | .ok rest =>
    match verifyBlobs H m (Z.stream rest) with
    | .error e => .error e
    | .ok () =>
      match manifestFromReader Z H f with
      | .error e => .error e
      | .ok (m', _) =>
        if m = m' then .ok () else .error (.err "Pack manifest doesn't match its index entry")

/-- `pack::load_manifest` (`src/pack.rs:373-390`) once the backend has returned `f`. -/
def loadManifest (id : ObjectId) (f : Bytes) : Res (Manifest ObjectId) :=
  match checkMagic f with
  | .error e => .error e
  | .ok _ =>
    match manifestFromReader Z H f with
    | .error e => .error e
    | .ok (m, id') => if id = id' then .ok m else .error (.err "Pack's manifest changed!")

/-- `pack::extract_blob` (`src/pack.rs:394-432`). -/
def extractBlob (f : Bytes) (id : ObjectId) (m : Manifest ObjectId) :
    Res (Entry ObjectId × Bytes) :=
  if m.any (fun e => e.id = id) then
    match checkMagic f with
    | .error e => .error e
    | .ok rest => extractLoop H id m (Z.stream rest)
  else .error (.panic "Given blob ID isn't in the given index")

/-- `pack::append_to_forest` (`src/pack.rs:435-484`). -/
def appendToForest (f : Bytes) (m : Manifest ObjectId) (forest : BMap ObjectId (Tree ObjectId)) :
    Res (BMap ObjectId (Tree ObjectId)) :=
  match checkMagic f with
  | .error e => .error e
  | .ok rest => appendLoop H Serde.decTree m (Z.stream rest) forest

/-- `ChunkReader::load_pack` (`src/read.rs:179-222`) once the backend has returned `f`
and the index the manifest. -/
def loadPack (f : Bytes) (m : Manifest ObjectId) : Res (List (ObjectId × Bytes) × Nat) :=
  match checkMagic f with
  | .error e => .error e
  | .ok rest => loadLoop H m (Z.stream rest)

end Files

end Pack
end Backpak
