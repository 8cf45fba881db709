import Verif.Model.Basic

/-!
# Readers and writers that look at what passes (`src/hashing.rs:119-176`, `src/progress.rs:19-71`)

`io::Read` and `io::Write` as whoever calls them sees them: a call may give or take fewer bytes than it could,
or fail, and may be made again. What a caller does next may depend on all it has seen so far.
-/

namespace Backpak.Streams

/-- `io::Error`, as far as callers tell kinds apart. -/
inductive IoErr
  | interrupted
  | writeZero
  | unexpectedEof
  | other (code : Nat)
deriving DecidableEq, Repr

/-- `io::Read`: given a buffer, how many bytes were put at its start, and the buffer as it is then. It promises to
say no more than fits. -/
structure Reader (S : Type) where
  read : S → Bytes → Except IoErr Nat × Bytes × S
  fits : ∀ s buf n buf' s', read s buf = (.ok n, buf', s') → n ≤ buf'.length
  /-- a buffer is a slice: it does not change its length -/
  slice : ∀ s buf r buf' s', read s buf = (r, buf', s') → buf'.length = buf.length

/-- `io::Write`: given a buffer, how many of its first bytes were taken. -/
structure Writer (S : Type) where
  write : S → Bytes → Except IoErr Nat × S
  flush : S → Except IoErr Unit × S
  fits : ∀ s buf n s', write s buf = (.ok n, s') → n ≤ buf.length

/-- A reader that shows the bytes it gives to something with a state. A `read` that fails shows nothing:
`self.inner.read(buf)?` returns first. -/
def Reader.tap {S H : Type} (r : Reader S) (see : H → Bytes → H) : Reader (S × H) where
  read := fun (s, h) buf =>
    match r.read s buf with
    | (.error e, buf', s') => (.error e, buf', (s', h))
    | (.ok n, buf', s') => (.ok n, buf', (s', see h (buf'.take n)))
  fits := by
    rintro ⟨s, h⟩ buf n buf' ⟨s', h'⟩ e
    rcases hr : r.read s buf with ⟨(_ | m), b, t⟩
    · simp [hr] at e
    · simp only [hr, Prod.mk.injEq, Except.ok.injEq] at e
      obtain ⟨rfl, rfl, _⟩ := e
      exact r.fits _ _ _ _ _ hr
  slice := by
    rintro ⟨s, h⟩ buf n buf' ⟨s', h'⟩ e
    rcases hr : r.read s buf with ⟨(_ | m), b, t⟩ <;>
    · simp only [hr, Prod.mk.injEq] at e
      obtain ⟨_, rfl, _⟩ := e
      exact r.slice _ _ _ _ _ hr

/-- A writer that shows the bytes that are taken to something with a state. -/
def Writer.tap {S H : Type} (w : Writer S) (see : H → Bytes → H) : Writer (S × H) where
  write := fun (s, h) buf =>
    match w.write s buf with
    | (.error e, s') => (.error e, (s', h))
    | (.ok n, s') => (.ok n, (s', see h (buf.take n)))
  flush := fun (s, h) => ((w.flush s).1, ((w.flush s).2, h))
  fits := by
    rintro ⟨s, h⟩ buf n ⟨s', h'⟩ e
    rcases hr : w.write s buf with ⟨(_ | m), t⟩
    · simp [hr] at e
    · simp only [hr, Prod.mk.injEq, Except.ok.injEq] at e
      obtain ⟨rfl, _⟩ := e
      exact w.fits _ _ _ _ hr

/-- `Sha224` (the `sha2` crate): bytes may be given in pieces; the digest is that of all of them. -/
structure Hasher (Id : Type) where
  hash : Bytes → Id
  State : Type
  new : State
  update : State → Bytes → State
  finalize : State → Id
  digest : ∀ l : List Bytes, finalize (l.foldl update new) = hash l.flatten

variable {Id S : Type}

/-- `HashingReader` (`src/hashing.rs:119-143`). -/
def hashingReader (D : Hasher Id) (r : Reader S) : Reader (S × D.State) := r.tap D.update

/-- `HashingReader::new` (`src/hashing.rs:125-130`), `HashingWriter::new` (`src/hashing.rs:151-156`). -/
def hashingNew (D : Hasher Id) (s : S) : S × D.State := (s, D.new)

/-- `finalize` (`src/hashing.rs:132-134,158-160`). -/
def hashingFinalize (D : Hasher Id) (s : S × D.State) : Id × S := (D.finalize s.2, s.1)

/-- `HashingWriter` (`src/hashing.rs:145-173`). -/
def hashingWriter (D : Hasher Id) (w : Writer S) : Writer (S × D.State) := w.tap D.update

/-- `fetch_add` on an `AtomicU64`: it wraps. -/
def fetchAdd (c : Nat) (b : Bytes) : Nat := (c + b.length) % 2 ^ 64

/-- `AtomicCountRead` (`src/progress.rs:20-42`). -/
def countRead (r : Reader S) : Reader (S × Nat) := r.tap fetchAdd

/-- `AtomicCountWrite` (`src/progress.rs:44-75`). -/
def countWrite (w : Writer S) : Writer (S × Nat) := w.tap fetchAdd

/-! ## Callers -/

/-- Whoever reads: gives a buffer, looks at what comes back, and goes on or ends. -/
inductive ReadProg (α : Type)
  | ret (a : α)
  | read (buf : Bytes) (k : Except IoErr Nat → Bytes → ReadProg α)

/-- Whoever writes. -/
inductive WriteProg (α : Type)
  | ret (a : α)
  | write (buf : Bytes) (k : Except IoErr Nat → WriteProg α)
  | flush (k : Except IoErr Unit → WriteProg α)

/-- What comes of it. -/
def ReadProg.run {α S : Type} (r : Reader S) : ReadProg α → S → α × S
  | .ret a, s => (a, s)
  | .read buf k, s => (k (r.read s buf).1 (r.read s buf).2.1).run r (r.read s buf).2.2

def WriteProg.run {α S : Type} (w : Writer S) : WriteProg α → S → α × S
  | .ret a, s => (a, s)
  | .write buf k, s => (k (w.write s buf).1).run w (w.write s buf).2
  | .flush k, s => (k (w.flush s).1).run w (w.flush s).2

/-! ## The standard library's callers -/

/-- `read_to_end`, `io::copy` and their like: read until a read gives nothing, and again if interrupted. They
choose their buffers as they like. `out` is what they got; they may fail instead. -/
inductive ToEnd (r : Reader S) : S → Bytes → Except IoErr Unit → S → Prop
  | eof (s buf buf' s') : buf ≠ [] → r.read s buf = (.ok 0, buf', s') → ToEnd r s [] (.ok ()) s'
  | more (s buf n buf' s' out res t) : r.read s buf = (.ok n, buf', s') → n ≠ 0 → ToEnd r s' out res t →
      ToEnd r s (buf'.take n ++ out) res t
  | again (s buf buf' s' out res t) : r.read s buf = (.error .interrupted, buf', s') → ToEnd r s' out res t →
      ToEnd r s out res t
  | fail (s buf e buf' s') : r.read s buf = (.error e, buf', s') → e ≠ .interrupted → ToEnd r s [] (.error e) s'

/-- `write_all`: write what is left until nothing is, and again if interrupted. `got` is what was taken. -/
inductive WriteAll (w : Writer S) : S → Bytes → Bytes → Except IoErr Unit → S → Prop
  | done (s) : WriteAll w s [] [] (.ok ()) s
  | zero (s buf s') : buf ≠ [] → w.write s buf = (.ok 0, s') → WriteAll w s buf [] (.error .writeZero) s'
  | some (s buf n s' got res t) : buf ≠ [] → w.write s buf = (.ok n, s') → n ≠ 0 →
      WriteAll w s' (buf.drop n) got res t → WriteAll w s buf (buf.take n ++ got) res t
  | again (s buf s' got res t) : buf ≠ [] → w.write s buf = (.error .interrupted, s') → WriteAll w s' buf got res t →
      WriteAll w s buf got res t
  | fail (s buf e s') : buf ≠ [] → w.write s buf = (.error e, s') → e ≠ .interrupted →
      WriteAll w s buf [] (.error e) s'

/-- One `write_all` after another (as `ciborium::into_writer` does), up to the first that fails. -/
inductive WriteEach (w : Writer S) : S → List Bytes → Bytes → Except IoErr Unit → S → Prop
  | nil (s) : WriteEach w s [] [] (.ok ()) s
  | cons (s b l got s' more res t) : WriteAll w s b got (.ok ()) s' → WriteEach w s' l more res t →
      WriteEach w s (b :: l) (got ++ more) res t
  | fail (s b l got e s') : WriteAll w s b got (.error e) s' → WriteEach w s (b :: l) got (.error e) s'

end Backpak.Streams
