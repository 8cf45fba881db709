import Verif.Model.Source

/-!
# The chunk reader and its cache (`src/read.rs`)
-/

namespace Backpak

/-- A cached chunk: its ID, when it was last used, and its bytes (`src/read.rs:21-24,41-44`). -/
structure Cached (Id : Type) where
  id : Id
  stamp : Nat
  chunk : Bytes
deriving DecidableEq, Repr

/-- What the reader gets from outside: the clock (`Instant::now`, here the reading of each
successive call) and the heap's choice of entry to pop (`mut_binary_heap`, its position). -/
structure CacheEnv (Id : Type) where
  clock : Nat → Nat
  pick : List (Cached Id) → Nat

/-- `ChunkReader` with its `ChunkCache` (`src/read.rs:95-102`), and how often the clock has
been read. `read_packs`, which only feeds a counter, is left out. -/
structure ReaderState (Id : Type) where
  entries : List (Cached Id)
  used : Nat
  biggest : Nat
  tick : Nat
deriving DecidableEq, Repr

/-- `ChunkReader::new` (`src/read.rs:105-119`). -/
def ReaderState.new {Id : Type} : ReaderState Id := ⟨[], 0, 0, 0⟩

variable {Id : Type} [LinearOrder Id]

/-- Set the stamp of a cached chunk. -/
def touch (id : Id) (now : Nat) (l : List (Cached Id)) : List (Cached Id) :=
  l.map (fun e => if e.id = id then { e with stamp := now } else e)

/-- `ChunkCache::get` (`src/read.rs:54-61`). -/
def cacheGet (env : CacheEnv Id) (s : ReaderState Id) (id : Id) : Option (Bytes × ReaderState Id) :=
  match s.entries.find? (fun e => e.id = id) with
  | none => none
  | some e =>
    some (e.chunk, { s with entries := touch id (env.clock s.tick) s.entries, tick := s.tick + 1 })

/-- `ChunkCache::insert` (`src/read.rs:63-73`). -/
def cacheInsert (env : CacheEnv Id) (s : ReaderState Id) (id : Id) (chunk : Bytes) : ReaderState Id :=
  if (s.entries.find? (fun e => e.id = id)).isSome then
    { s with entries := touch id (env.clock s.tick) s.entries, tick := s.tick + 1 }
  else
    { s with
      entries := s.entries ++ [⟨id, env.clock s.tick, chunk⟩]
      used := s.used + chunk.length
      tick := s.tick + 1 }

/-- `ChunkCache::shrink_to` (`src/read.rs:75-92`). The first argument counts down the loop; it
starts at the number of entries, and each round pops one. -/
def shrinkTo (env : CacheEnv Id) (limit : Nat) : Nat → ReaderState Id → Res (ReaderState Id)
  | 0, s => .ok s
  | n + 1, s =>
    if s.entries ≠ [] ∧ limit < s.used then
      match s.entries[env.pick s.entries]? with
      | none => .error (.panic "called `Option::unwrap()` on a `None` value")
      | some e =>
        if e.chunk.length ≤ s.used then
          shrinkTo env limit n { s with
            entries := s.entries.eraseIdx (env.pick s.entries), used := s.used - e.chunk.length }
        else .error (.panic "assertion failed: self.space_used >= popped.chunk.len()")
    else .ok s

/-- `ChunkReader::read_blob` (`src/read.rs:142-177`), with `load_pack` (`src/read.rs:179-222`).
A failed load leaves the reader unused (every caller stops), so its state is dropped. -/
def readBlob (H : Bytes → Id) (src : Source Id) (env : CacheEnv Id) (s : ReaderState Id) (id : Id) :
    Res (Bytes × ReaderState Id) :=
  match cacheGet env s id with
  | some r => .ok r
  | none =>
    match src.blobMap.get? id with
    | none => .error (.err "Chunk not found in any pack")
    | some p =>
      match src.read p with
      | .error e => .error e
      | .ok stream =>
        match src.index.packs.get? p with
        | none => .error (.err "Couldn't find pack manifest in the index")
        | some m =>
          match Pack.loadLoop H m stream with
          | .error e => .error e
          | .ok (chunks, size) =>
            let s1 := chunks.foldl (fun s c => cacheInsert env s c.1 c.2) s
            let s2 := { s1 with biggest := max s1.biggest size }
            match shrinkTo env (s2.biggest * 2) s2.entries.length s2 with
            | .error e => .error e
            | .ok s3 =>
              match cacheGet env s3 id with
              | none => .error (.panic "called `Option::unwrap()` on a `None` value")
              | some r => .ok r

/-- `ChunkReader::blob_size` (`src/read.rs:122-140`). -/
def blobSize (src : Source Id) (id : Id) : Res Nat :=
  match src.blobMap.get? id with
  | none => .error (.err "Chunk not found in any pack")
  | some p =>
    match src.index.packs.get? p with
    | none => .error (.err "Couldn't find pack manifest in the index")
    | some m =>
      match m.find? (fun e => e.id = id) with
      | none => .error (.err "Chunk isn't in pack like the index said")
      | some e => .ok e.length

/-- Reading one chunk after another. -/
def readBlobs (H : Bytes → Id) (src : Source Id) (env : CacheEnv Id) :
    ReaderState Id → List Id → Res (List Bytes × ReaderState Id)
  | s, [] => .ok ([], s)
  | s, id :: l =>
    match readBlob H src env s id with
    | .error e => .error e
    | .ok (x, s') =>
      match readBlobs H src env s' l with
      | .error e => .error e
      | .ok (xs, s'') => .ok (x :: xs, s'')

end Backpak
