import Verif.Model.Basic
import Mathlib.Logic.Relation

/-!
# Piping objects through a program (`src/backend/filter.rs`)

A program is run by `sh -c`, one thread copies to its input, another reads its output. The two pipes
hold some number of bytes each. A step of the transition system is one system call of one of the three;
calls that must wait are steps that are not enabled yet.

Simplified: a program closes its ends of the pipes when it exits and not before; starting it does not
fail; pipes do not fail but for writing to a program that is gone.
-/

namespace Backpak

/-- What a program does next. -/
inductive Prog.Act (σ : Type)
  /-- read some of its input; no bytes are the end of it -/
  | read (k : Bytes → σ)
  /-- write to its output -/
  | write (b : Bytes) (s : σ)
  /-- exit; 0 is success, everything else is not, be it a code or a signal -/
  | exit (code : Nat)

/-- Any program. -/
structure Prog (σ : Type) where
  start : σ
  next : σ → Prog.Act σ

namespace Pipes

/-- The thread `unfilter-copy` (`src/backend/filter.rs:85-90`), `filter-copy` (`src/backend/filter.rs:127-134`). -/
inductive Copier
  /-- in `io::copy` -/
  | copying
  /-- `io::copy` has returned; the end of the pipe is about to be dropped -/
  | closing (ok : Bool)
  /-- the end of the pipe is dropped; the thread still exists -/
  | closed (ok : Bool)
  /-- the thread has ended -/
  | ended (ok : Bool)
deriving DecidableEq, Repr

/-- The end of the pipe the copying thread had is dropped. -/
def Copier.Shut : Copier → Prop
  | .copying | .closing _ => False
  | .closed _ | .ended _ => True

/-- The program. -/
inductive Child (σ : Type)
  /-- it runs, with bytes it has yet to write to its output -/
  | running (pend : Bytes) (s : σ)
  | exited (code : Nat)

/-- The copying thread, the program, and the pipes to and from it. -/
structure Feed (σ : Type) where
  /-- what the copying thread has yet to read -/
  src : Bytes
  /-- what it has read but has yet to write -/
  hold : Bytes
  copier : Copier
  pin : Bytes
  child : Child σ
  pout : Bytes

/-- At first. -/
def Feed.init {σ : Type} (p : Prog σ) (x : Bytes) : Feed σ := ⟨x, [], .copying, [], .running [] p.start, []⟩

/-- Steps of the copying thread and of the program. `cap` is the size of a pipe. -/
inductive Feed.Step {σ : Type} (p : Prog σ) (cap : Nat) : Feed σ → Feed σ → Prop
  /-- `io::copy` reads -/
  | fetch {a b pin child pout} : a ≠ [] →
    Step p cap ⟨a ++ b, [], .copying, pin, child, pout⟩ ⟨b, a, .copying, pin, child, pout⟩
  /-- it reads the end: all was copied -/
  | finish {pin child pout} :
    Step p cap ⟨[], [], .copying, pin, child, pout⟩ ⟨[], [], .closing true, pin, child, pout⟩
  /-- the reader it copies from fails -/
  | break_ {src pin child pout} :
    Step p cap ⟨src, [], .copying, pin, child, pout⟩ ⟨src, [], .closing false, pin, child, pout⟩
  /-- it writes as much as there is room for -/
  | feed {src a b pin pend s pout} : a ≠ [] → pin.length + a.length ≤ cap →
    Step p cap ⟨src, a ++ b, .copying, pin, .running pend s, pout⟩ ⟨src, b, .copying, pin ++ a, .running pend s, pout⟩
  /-- it writes, but nobody reads any more (`EPIPE`) -/
  | gone {src hold pin code pout} : hold ≠ [] →
    Step p cap ⟨src, hold, .copying, pin, .exited code, pout⟩ ⟨src, hold, .closing false, pin, .exited code, pout⟩
  /-- what the thread owns is dropped -/
  | shut {src hold ok pin child pout} :
    Step p cap ⟨src, hold, .closing ok, pin, child, pout⟩ ⟨src, hold, .closed ok, pin, child, pout⟩
  /-- the thread ends -/
  | ends {src hold ok pin child pout} :
    Step p cap ⟨src, hold, .closed ok, pin, child, pout⟩ ⟨src, hold, .ended ok, pin, child, pout⟩
  /-- the program reads some of what there is -/
  | read {src hold c a b s k pout} : p.next s = .read k → a ≠ [] →
    Step p cap ⟨src, hold, c, a ++ b, .running [] s, pout⟩ ⟨src, hold, c, b, .running [] (k a), pout⟩
  /-- the program reads the end of its input -/
  | readEnd {src hold c s k pout} : p.next s = .read k → c.Shut →
    Step p cap ⟨src, hold, c, [], .running [] s, pout⟩ ⟨src, hold, c, [], .running [] (k []), pout⟩
  /-- the program is about to write -/
  | write {src hold c pin s b s' pout} : p.next s = .write b s' →
    Step p cap ⟨src, hold, c, pin, .running [] s, pout⟩ ⟨src, hold, c, pin, .running b s', pout⟩
  /-- it writes as much as there is room for -/
  | push {src hold c pin a b s pout} : a ≠ [] → pout.length + a.length ≤ cap →
    Step p cap ⟨src, hold, c, pin, .running (a ++ b) s, pout⟩ ⟨src, hold, c, pin, .running b s, pout ++ a⟩
  | exit {src hold c pin s code pout} : p.next s = .exit code →
    Step p cap ⟨src, hold, c, pin, .running [] s, pout⟩ ⟨src, hold, c, pin, .exited code, pout⟩

/-! ## Reading -/

/-- What became of the reader. -/
inductive Reading
  | reading
  /-- `read` returned `Ok(0)`, so whoever reads has everything -/
  | complete
  /-- `read` returned an error -/
  | failed
  /-- `assert!(copy_thread.is_finished())` did not hold (`src/backend/filter.rs:61`) -/
  | panicked
deriving DecidableEq, Repr

/-- A reader made by `BackendFilter::read` (`src/backend/filter.rs:71-101`), and what was read. -/
structure Reader (σ : Type) where
  feed : Feed σ
  got : Bytes
  state : Reading

/-- `BackendFilter::read`; `x` is what the backend behind it holds. -/
def Reader.init {σ : Type} (p : Prog σ) (x : Bytes) : Reader σ := ⟨.init p x, [], .reading⟩

/-- Calls of `UnfilterRead::read` (`src/backend/filter.rs:33-68`), and what goes on meanwhile. -/
inductive Reader.Step {σ : Type} (p : Prog σ) (cap : Nat) : Reader σ → Reader σ → Prop
  | feed {f f' got state} : Feed.Step p cap f f' → Step p cap ⟨f, got, state⟩ ⟨f', got, state⟩
  /-- some bytes are read -/
  | take {src hold c pin child a b got} : a ≠ [] →
    Step p cap ⟨⟨src, hold, c, pin, child, a ++ b⟩, got, .reading⟩ ⟨⟨src, hold, c, pin, child, b⟩, got ++ a, .reading⟩
  /-- none are left, and the program failed -/
  | bad {src hold c pin code got} : code ≠ 0 →
    Step p cap ⟨⟨src, hold, c, pin, .exited code, []⟩, got, .reading⟩
      ⟨⟨src, hold, c, pin, .exited code, []⟩, got, .failed⟩
  /-- none are left, the program succeeded, and the thread has not ended -/
  | early {src hold c pin got} : (∀ ok, c ≠ .ended ok) →
    Step p cap ⟨⟨src, hold, c, pin, .exited 0, []⟩, got, .reading⟩
      ⟨⟨src, hold, c, pin, .exited 0, []⟩, got, .panicked⟩
  /-- the thread has ended, but could not copy everything -/
  | short {src hold pin got} :
    Step p cap ⟨⟨src, hold, .ended false, pin, .exited 0, []⟩, got, .reading⟩
      ⟨⟨src, hold, .ended false, pin, .exited 0, []⟩, got, .failed⟩
  | done {src hold pin got} :
    Step p cap ⟨⟨src, hold, .ended true, pin, .exited 0, []⟩, got, .reading⟩
      ⟨⟨src, hold, .ended true, pin, .exited 0, []⟩, got, .complete⟩

def Reader.Reachable {σ : Type} (p : Prog σ) (cap : Nat) (x : Bytes) : Reader σ → Prop :=
  Relation.ReflTransGen (Reader.Step p cap) (.init p x)

/-! ## Writing -/

/-- Where `BackendFilter::write` is (`src/backend/filter.rs:104-159`). -/
inductive Writing
  /-- copying the output of the program to a temporary file -/
  | draining
  /-- waiting for the copying thread to end; copying to the temporary file went well or not -/
  | joining (ok : Bool)
  /-- waiting for the program to exit -/
  | waiting
  /-- about to write to the backend -/
  | storing
  | succeeded
  | failed
deriving DecidableEq, Repr

structure Writer (σ : Type) where
  feed : Feed σ
  /-- the temporary file -/
  temp : Bytes
  state : Writing
  /-- what the backend behind it was told to write: a length, and the bytes -/
  told : Option (Nat × Bytes)

def Writer.init {σ : Type} (p : Prog σ) (x : Bytes) : Writer σ := ⟨.init p x, [], .draining, none⟩

inductive Writer.Step {σ : Type} (p : Prog σ) (cap : Nat) : Writer σ → Writer σ → Prop
  | feed {f f' temp state told} : Feed.Step p cap f f' → Step p cap ⟨f, temp, state, told⟩ ⟨f', temp, state, told⟩
  /-- some output is copied to the temporary file -/
  | take {src hold c pin child a b temp told} : a ≠ [] →
    Step p cap ⟨⟨src, hold, c, pin, child, a ++ b⟩, temp, .draining, told⟩
      ⟨⟨src, hold, c, pin, child, b⟩, temp ++ a, .draining, told⟩
  /-- writing to the temporary file fails: what was read is lost, and so is the rest
  (`src/backend/filter.rs:137`) -/
  | full {src hold c pin child a b temp told} : a ≠ [] →
    Step p cap ⟨⟨src, hold, c, pin, child, a ++ b⟩, temp, .draining, told⟩
      ⟨⟨src, hold, c, pin, child, b⟩, temp, .joining false, told⟩
  /-- the program has exited and its output is read -/
  | drained {src hold c pin code temp told} :
    Step p cap ⟨⟨src, hold, c, pin, .exited code, []⟩, temp, .draining, told⟩
      ⟨⟨src, hold, c, pin, .exited code, []⟩, temp, .joining true, told⟩
  /-- the copying thread has ended -/
  | joined {src hold pin child pout temp told} :
    Step p cap ⟨⟨src, hold, .ended true, pin, child, pout⟩, temp, .joining true, told⟩
      ⟨⟨src, hold, .ended true, pin, child, pout⟩, temp, .waiting, told⟩
  /-- it has ended, and one of the two copies failed -/
  | unjoined {src hold pin child pout temp told ok ok'} : (ok && ok') = false →
    Step p cap ⟨⟨src, hold, .ended ok, pin, child, pout⟩, temp, .joining ok', told⟩
      ⟨⟨src, hold, .ended ok, pin, child, pout⟩, temp, .failed, told⟩
  /-- `ensure!(f.wait().unwrap().success())` -/
  | good {src hold c pin pout temp told} :
    Step p cap ⟨⟨src, hold, c, pin, .exited 0, pout⟩, temp, .waiting, told⟩
      ⟨⟨src, hold, c, pin, .exited 0, pout⟩, temp, .storing, told⟩
  | bad {src hold c pin code pout temp told} : code ≠ 0 →
    Step p cap ⟨⟨src, hold, c, pin, .exited code, pout⟩, temp, .waiting, told⟩
      ⟨⟨src, hold, c, pin, .exited code, pout⟩, temp, .failed, told⟩
  /-- the backend behind it writes, and succeeds -/
  | store {f temp told} : Step p cap ⟨f, temp, .storing, told⟩ ⟨f, temp, .succeeded, some (temp.length, temp)⟩
  /-- it fails -/
  | unstore {f temp told} : Step p cap ⟨f, temp, .storing, told⟩ ⟨f, temp, .failed, some (temp.length, temp)⟩

def Writer.Reachable {σ : Type} (p : Prog σ) (cap : Nat) (x : Bytes) : Writer σ → Prop :=
  Relation.ReflTransGen (Writer.Step p cap) (.init p x)

end Pipes

end Backpak
