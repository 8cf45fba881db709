import Verif.Model.B2
import Verif.Model.Files
import Verif.Spec.Store
import Verif.Lemmas.BMap

/-!
# The stores a repository is kept in (`src/backend.rs:102-114`, `src/backend/fs.rs:78-142`,
`src/backend/backblaze.rs:46-94`, `src/backend/memory.rs`)

How each of them answers what is asked of it, by one program and one thing at a time. A path is that of an object in
the directory of its kind (`destination`). The directory of the repository is left out of paths: `fs.rs` puts
it before every path and takes it off again.
-/

namespace Backpak.Stores

open Spec

/-- The path of an object (`destination`, `src/backend.rs:434-442`). -/
def at_ (k : Shelf) (id : ObjectId) : Bytes := k.dir ++ objectName k id

/-! ## In memory (`src/backend/memory.rs:36-67`) -/

/-- A hash map: listed in any order. -/
inductive Memory : BMap Bytes Bytes → Ask → BMap Bytes Bytes → Answer → Prop
  | write (m : BMap Bytes Bytes) (k id x) : Memory m (.write k id x) (m.insert (at_ k id) x) .done
  | read (m : BMap Bytes Bytes) (k id) {x} : m.get? (at_ k id) = some x → Memory m (.read k id) m (.got x)
  | none (m : BMap Bytes Bytes) (k id) : m.get? (at_ k id) = none → Memory m (.read k id) m .failed
  /-- nothing is wrong if there is none -/
  | remove (m : BMap Bytes Bytes) (k id) : Memory m (.remove k id) (m.erase (at_ k id)) .done
  | list (m : BMap Bytes Bytes) (k : Shelf) (l) :
    l.Perm ((m.filter fun e => k.dir.isPrefixOf e.1).map fun e => (e.1, e.2.length)) → Memory m (.list k) m (.paths l)

/-! ## On a disk (`src/backend/fs.rs:78-142`; `src/backend.rs:233-266` moves files there) -/

open Files

/-- A job that puts something there: by copying or by moving a file that holds it and is not itself in the
repository; the temporary file gets a name that is not there. -/
structure Puts (fs : Fs) (k : Shelf) (id : ObjectId) (x : Bytes) (job : Job) : Prop where
  kind : job.kind ≠ .remove
  dst : job.dst = at_ k id
  whole : job.whole = x
  temp : ∃ r, (47 : UInt8) ∉ r ∧ job.temp = tempName job.dst r
  absent : fs.names job.temp = none
  source : ∀ a, job.kind.src = some a → fs.get a = some x ∧ a ≠ job.temp ∧ ∀ k : Shelf, ¬ k.dir <+: a

/-- A job on its own: how far it may have come. -/
def Comes (job : Job) (fs : Fs) (s : State Unit) : Prop := Reachable (fun _ => job) fs s

inductive Disk : Fs → Ask → Fs → Answer → Prop
  | write (fs : Fs) (k id x job s) : Puts fs k id x job → Comes job fs s → s.pc () = .done →
    Disk fs (.write k id x) s.fs .done
  | writeFails (fs : Fs) (k id x job s) : Puts fs k id x job → Comes job fs s → s.pc () = .failed →
    Disk fs (.write k id x) s.fs .failed
  | read (fs : Fs) (k id) {x} : fs.get (at_ k id) = some x → Disk fs (.read k id) fs (.got x)
  /-- it is not there, or cannot be read -/
  | readFails (fs : Fs) (k id) : Disk fs (.read k id) fs .failed
  | remove (fs : Fs) (k id) : fs.names (at_ k id) ≠ none → Disk fs (.remove k id) (setName fs (at_ k id) none) .done
  /-- it is not there, or may not be removed -/
  | removeFails (fs : Fs) (k id) : Disk fs (.remove k id) fs .failed
  /-- the entries of a directory come in any order, each once (`walk_dir`, `src/backend/fs.rs:126-139`) -/
  | list (fs : Fs) (k : Shelf) (l : List (Bytes × Nat)) : (l.map Prod.fst).Nodup →
    (∀ p n, (p, n) ∈ l ↔ Listed fs k.dir p ∧ ∃ x, fs.get p = some x ∧ n = x.length) →
    Disk fs (.list k) fs (.paths l)
  | listFails (fs : Fs) (k : Shelf) : Disk fs (.list k) fs .failed

/-- What is found when the program was killed in the middle of it. -/
inductive DiskCut : Fs → Ask → Fs → Prop
  | write (fs : Fs) (k id x job s) : Puts fs k id x job → Comes job fs s → DiskCut fs (.write k id x) s.fs
  | remove (fs : Fs) (k id) : fs.names (at_ k id) ≠ none → DiskCut fs (.remove k id) (setName fs (at_ k id) none)
  | nothing (fs : Fs) (a) : DiskCut fs a fs

/-! ## At Backblaze (`src/backend/backblaze.rs:46-94`, `b2/src/lib.rs:153-301`) -/

/-- A version of a file and what is in it. -/
structure Stored where
  name : Name
  id : Nat
  data : Bytes
deriving DecidableEq, Repr

def Stored.version (v : Stored) : B2.Version := ⟨v.name, v.id⟩

/-- A bucket: its versions, the newest first. -/
abbrev Bucket := List Stored

/-- What downloading by name gives: the newest version. -/
def Bucket.latest (B : Bucket) (p : Name) : Option Bytes := (B.find? fun v => v.name = p).map Stored.data

/-- What `b2_list_file_names` is about: each name once, as its newest version is. -/
def Bucket.table (B : Bucket) : BMap Name B2.Item :=
  B.foldr (fun v m => m.insert v.name ⟨.upload, some v.data.length⟩) []

/-- Versions of a file that are new, on top of those there were; each version has an ID of its own. -/
def Adds (B : Bucket) (p : Name) (l : List Bytes) (B' : Bucket) : Prop :=
  ∃ new : Bucket, B' = new ++ B ∧ new.map Stored.data = l.reverse ∧ (∀ v ∈ new, v.name = p) ∧ (B'.map Stored.id).Nodup

variable (sha : Bytes → Bytes)

/-- Every one of these is tried again until it succeeds, so there is no failing but of a download that breaks off
(and of reading what is to be uploaded). -/
inductive Remote : Bucket → Ask → Bucket → Answer → Prop
  | write (B : Bucket) (k id x) (net : Nat → B2.Net) (fuel : Nat) (ys B') :
    B2.upload sha x.length net fuel 0 x = (true, ys) → Adds B (at_ k id) ys B' → Remote B (.write k id x) B' .done
  | read (B : Bucket) (k id x) (up : Nat → Bool) (fuel : Nat) :
    B2.retried up (B.latest (at_ k id)) fuel 0 = some x → Remote B (.read k id) B (.got x)
  | breaks (B : Bucket) (k id x) (up : Nat → Bool) (fuel : Nat) :
    B2.retried up (B.latest (at_ k id)) fuel 0 = some x → Remote B (.read k id) B .failed
  | remove (B : Bucket) (k id) (up : Nat → Bool) (fuel : Nat) (vs : List B2.Version) :
    B2.retried up (B2.delete (B.map Stored.version) (at_ k id)) fuel 0 = some vs →
    Remote B (.remove k id) (B.filter fun v => v.version ∈ vs) .done
  | list (B : Bucket) (k : Shelf) (ask : Nat → Option Name → Except Unit B2.Answer) (fuel : Nat) (l) :
    (∀ i s a, ask i s = .ok a → B2.Page B.table k.dir s a) → B2.list ask fuel = some (.ok l) →
    Remote B (.list k) B (.paths l)

/-- What is found when the program was killed in the middle of it, or is still at it. -/
inductive RemoteCut : Bucket → Ask → Bucket → Prop
  | write (B : Bucket) (k id x) (net : Nat → B2.Net) (fuel : Nat) (b ys B') :
    B2.upload sha x.length net fuel 0 x = (b, ys) → Adds B (at_ k id) ys B' → RemoteCut B (.write k id x) B'
  | remove (B : Bucket) (k id) (vs : List B2.Version) : B2.delete (B.map Stored.version) (at_ k id) = some vs →
    RemoteCut B (.remove k id) (B.filter fun v => v.version ∈ vs)
  | nothing (B : Bucket) (a) : RemoteCut B a B

/-! ## Asking one after another -/

inductive Runs {S : Type} (does : S → Ask → S → Answer → Prop) : S → List (Ask × Answer) → S → Prop
  | nil (s) : Runs does s [] s
  | cons {s s1 s2 a b l} : does s a s1 b → Runs does s1 l s2 → Runs does s ((a, b) :: l) s2

end Backpak.Stores
