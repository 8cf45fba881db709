import Verif.Model.Pipes

/-!
# The trial of a filter by `init` (`src/ui/init.rs:91-129`)

Each of the two programs is given all its input by the thread that then reads its output: there is no other thread
as in `src/backend/filter.rs`. The pipes and the program are those of `Model/Pipes`; what is there the copying thread
is here the same thread, which reads nothing until that part is over.
-/

namespace Backpak.Trial

open Pipes

/-- What is piped through both (`src/ui/init.rs:86-89`). -/
def plaintext : Bytes :=
  ascii ("I'd like some help remembering stuff.\nI wonder if I could come down and see you,\n" ++
    "and we could drink and talk and remember.\nr")

/-- How far `init` is with a program. -/
inductive Trying
  /-- in `write_all` -/
  | feeding
  /-- in `wait_with_output` -/
  | reading
  /-- it has returned what was read and the exit code -/
  | over (code : Nat)
  /-- `write_all` has failed -/
  | broken
deriving DecidableEq, Repr

/-- `init` and a program. -/
structure Half (σ : Type) where
  feed : Feed σ
  got : Bytes
  state : Trying

/-- The program was started. -/
def Half.init {σ : Type} (p : Prog σ) (x : Bytes) : Half σ := ⟨.init p x, [], .feeding⟩

inductive Half.Step {σ : Type} (p : Prog σ) (cap : Nat) : Half σ → Half σ → Prop
  /-- Writing to the program, and the program. What is written is in memory: reading it does not fail. -/
  | feed {f f' got state} : Feed.Step p cap f f' → (f'.copier = .closing false → f'.hold ≠ []) →
    Step p cap ⟨f, got, state⟩ ⟨f', got, state⟩
  /-- all is written and the pipe to the program is closed (`src/ui/init.rs:99-103,115-119`) -/
  | fed {src hold pin child pout got} :
    Step p cap ⟨⟨src, hold, .ended true, pin, child, pout⟩, got, .feeding⟩
      ⟨⟨src, hold, .ended true, pin, child, pout⟩, got, .reading⟩
  /-- the program was gone before all was written -/
  | unfed {src hold pin child pout got} :
    Step p cap ⟨⟨src, hold, .ended false, pin, child, pout⟩, got, .feeding⟩
      ⟨⟨src, hold, .ended false, pin, child, pout⟩, got, .broken⟩
  | take {src hold c pin child a b got} : a ≠ [] →
    Step p cap ⟨⟨src, hold, c, pin, child, a ++ b⟩, got, .reading⟩ ⟨⟨src, hold, c, pin, child, b⟩, got ++ a, .reading⟩
  /-- its output is read and it has exited -/
  | eof {src hold c pin code got} :
    Step p cap ⟨⟨src, hold, c, pin, .exited code, []⟩, got, .reading⟩
      ⟨⟨src, hold, c, pin, .exited code, []⟩, got, .over code⟩

/-- `round_trip_filter_test`. -/
inductive State (σ τ : Type)
  | filtering (h : Half σ)
  | unfiltering (filtered : Bytes) (h : Half τ)
  | accepted
  | refused

inductive Step {σ τ : Type} (p : Prog σ) (q : Prog τ) (cap : Nat) (plain : Bytes) : State σ τ → State σ τ → Prop
  | filter {h h'} : Half.Step p cap h h' → Step p q cap plain (.filtering h) (.filtering h')
  /-- `src/ui/init.rs:104-114` -/
  | filtered {f got} : Step p q cap plain (.filtering ⟨f, got, .over 0⟩) (.unfiltering got (.init q got))
  | filterFailed {f got code} : code ≠ 0 → Step p q cap plain (.filtering ⟨f, got, .over code⟩) .refused
  | filterBroken {f got} : Step p q cap plain (.filtering ⟨f, got, .broken⟩) .refused
  | unfilter {y h h'} : Half.Step q cap h h' → Step p q cap plain (.unfiltering y h) (.unfiltering y h')
  /-- `src/ui/init.rs:120-128` -/
  | same {y f} : Step p q cap plain (.unfiltering y ⟨f, plain, .over 0⟩) .accepted
  | differs {y f got} : got ≠ plain → Step p q cap plain (.unfiltering y ⟨f, got, .over 0⟩) .refused
  | unfilterFailed {y f got code} : code ≠ 0 → Step p q cap plain (.unfiltering y ⟨f, got, .over code⟩) .refused
  | unfilterBroken {y f got} : Step p q cap plain (.unfiltering y ⟨f, got, .broken⟩) .refused

def Reachable {σ τ : Type} (p : Prog σ) (q : Prog τ) (cap : Nat) (plain : Bytes) : State σ τ → Prop :=
  Relation.ReflTransGen (Step p q cap plain) (.filtering (.init p plain))

end Backpak.Trial
