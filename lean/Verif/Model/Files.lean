import Mathlib.Logic.Relation
import Mathlib.Data.List.Infix
import Verif.Model.Names

/-!
# Writing to a filesystem (`src/file_util.rs:63-142`, `src/backend/fs.rs:78-142`)

Any number of programs write to the same directories at the same time. A program that is killed is one
that takes no further step.
-/

namespace Backpak.Files

/-- Files: the file each name stands for, what is in each file, and whether that is on the disk for
good. -/
structure Fs where
  names : Bytes → Option Nat
  data : Nat → Bytes
  durable : Nat → Bool

/-- What is found under a name. -/
def Fs.get (s : Fs) (p : Bytes) : Option Bytes := (s.names p).map s.data

/-- What is to be done with an object. -/
inductive Kind
  /-- `FilesystemBackend::write` and `Cache::insert`: `safe_copy_to_file` (`src/file_util.rs:117-142`) -/
  | copy
  /-- `move_opened` (`src/file_util.rs:70-92`) on one device -/
  | move (src : Bytes)
  /-- `move_opened` from one device to another: `move_by_copy` (`src/file_util.rs:103-111`) -/
  | across (src : Bytes)
  /-- `FilesystemBackend::remove` (`src/backend/fs.rs:93-97`) -/
  | remove
deriving DecidableEq

structure Job where
  kind : Kind
  /-- The name it is about. -/
  dst : Bytes
  /-- The name of the temporary file. -/
  temp : Bytes
  /-- All that is to be written. -/
  whole : Bytes

/-- How far a job is. -/
inductive Pc
  | ready
  /-- the temporary file is open and this much is written -/
  | writing (file : Nat) (written : Bytes)
  | moved (file : Nat)
  | synced (file : Nat)
  | done
  | failed
deriving DecidableEq

structure State (J : Type) where
  fs : Fs
  pc : J → Pc

variable {J : Type} [DecidableEq J]

def at_ (pc : J → Pc) (j : J) (v : Pc) : J → Pc := fun i => if i = j then v else pc i

def setName (s : Fs) (p : Bytes) (v : Option Nat) : Fs := { s with names := fun q => if q = p then v else s.names q }

/-- `rename(2)`: the name stands for the other file from then on, and the other name is gone. -/
def rename (s : Fs) (a b : Bytes) : Fs :=
  { s with names := fun q => if q = b then s.names a else if q = a then none else s.names q }

def write (s : Fs) (i : Nat) (x : Bytes) : Fs :=
  { s with data := fun k => if k = i then x else s.data k,
           durable := fun k => if k = i then false else s.durable k }

def sync (s : Fs) (i : Nat) : Fs := { s with durable := fun k => if k = i then true else s.durable k }

def Kind.src : Kind → Option Bytes
  | .move a => some a
  | .across a => some a
  | _ => none

/-- Whether a job is done by copying. -/
def Kind.copies : Kind → Bool
  | .copy => true
  | .across _ => true
  | _ => false

inductive Step (jobs : J → Job) : State J → State J → Prop
  /-- `tempfile_in`: a name that was not there, for a file that was not there -/
  | create (s : State J) (j : J) (i : Nat) : (jobs j).kind.copies = true → s.pc j = .ready →
    s.fs.names (jobs j).temp = none → (∀ p, s.fs.names p ≠ some i) →
    Step jobs s ⟨write (setName s.fs (jobs j).temp (some i)) i [], at_ s.pc j (.writing i [])⟩
  /-- one of the writes of `std::io::copy` -/
  | append (s : State J) (j : J) (i : Nat) (w x : Bytes) : s.pc j = .writing i w → w ++ x <+: (jobs j).whole →
    Step jobs s ⟨write s.fs i (s.fs.data i ++ x), at_ s.pc j (.writing i (w ++ x))⟩
  /-- `persist`, once `std::io::copy` has read everything -/
  | persist (s : State J) (j : J) (i : Nat) : s.pc j = .writing i (jobs j).whole →
    Step jobs s ⟨rename s.fs (jobs j).temp (jobs j).dst, at_ s.pc j (.moved i)⟩
  /-- `sync_all` -/
  | sync (s : State J) (j : J) (i : Nat) : s.pc j = .moved i → Step jobs s ⟨sync s.fs i, at_ s.pc j (.synced i)⟩
  | finish (s : State J) (j : J) (i : Nat) : (jobs j).kind = .copy → s.pc j = .synced i →
    Step jobs s ⟨s.fs, at_ s.pc j .done⟩
  /-- `remove_file(from)` -/
  | unlink (s : State J) (j : J) (i : Nat) (src : Bytes) : (jobs j).kind = .across src → s.pc j = .synced i →
    Step jobs s ⟨setName s.fs src none, at_ s.pc j .done⟩
  /-- `rename(from, to)` -/
  | move (s : State J) (j : J) (src : Bytes) : (jobs j).kind = .move src → s.pc j = .ready →
    Step jobs s ⟨rename s.fs src (jobs j).dst, at_ s.pc j .done⟩
  | remove (s : State J) (j : J) : (jobs j).kind = .remove → s.pc j = .ready →
    Step jobs s ⟨setName s.fs (jobs j).dst none, at_ s.pc j .done⟩
  /-- An error before `persist`: the temporary file goes away with its handle. -/
  | fail (s : State J) (j : J) (i : Nat) (w : Bytes) : s.pc j = .writing i w →
    Step jobs s ⟨setName s.fs (jobs j).temp none, at_ s.pc j .failed⟩
  /-- Any other error. -/
  | stop (s : State J) (j : J) : (∀ i w, s.pc j ≠ .writing i w) → s.pc j ≠ .done →
    Step jobs s ⟨s.fs, at_ s.pc j .failed⟩

def Reachable (jobs : J → Job) (fs : Fs) (s : State J) : Prop :=
  Relation.ReflTransGen (Step jobs) ⟨fs, fun _ => .ready⟩ s

/-- What `FilesystemBackend::list` shows (`src/backend/fs.rs:99-123`): what is there, in the directory,
and not a temporary file. -/
def Listed (fs : Fs) (dir p : Bytes) : Prop :=
  dir <+: p ∧ fs.names p ≠ none ∧ Names.extension p ≠ some (ascii "part")

/-- What may be found after the power failed: what was not on the disk for good may be there in part.
That the names are as they were last is one of the things that can happen. -/
structure PowerLoss (s s' : Fs) : Prop where
  names : s'.names = s.names
  kept : ∀ i, s.durable i = true → s'.data i = s.data i
  torn : ∀ i, s'.data i <+: s.data i

/-- The name of a temporary file (`src/file_util.rs:120-126`), given what was chosen at random. -/
def tempName (dst rand : Bytes) : Bytes := dst ++ 46 :: (rand ++ ascii ".part")

end Backpak.Files
