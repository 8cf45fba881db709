import Verif.Model.Semaphored
import Verif.Lemmas.SemaphoreRun
import Mathlib.Data.Fintype.Basic

/-!
# Running the backend that limits connections, for examples
-/

namespace Backpak.Semaphored

variable {T : Type} [DecidableEq T] [Fintype T]

/-- What a thread can do. -/
inductive Move (T : Type)
  | call (t : T) (c : Call)
  | waiting (m : Semaphore.Move T)
  | request (t : T)
  | finish (t : T)
  | close (t : T)

/-- Do it. -/
def move (m : Move T) (s : State T) : Option (State T) :=
  match m with
  | .call t c =>
    if s.doing t = .idle ∧ s.sem.pc t = .out then some (s.now (Semaphore.at_ s.sem t (.trying 1)) t (.asking c)) else none
  | .waiting m =>
    match Semaphore.move m s.sem with
    | some sem => if sem.held = s.sem.held ∧ ∀ t, sem.pc t = .out ↔ s.sem.pc t = .out then some ⟨sem, s.doing⟩ else none
    | none => none
  | .request t =>
    match s.doing t with
    | .asking c =>
      if s.sem.pc t = .trying s.sem.count then
        some (s.now { Semaphore.at_ s.sem t .out with count := s.sem.count - 1, held := s.sem.held + 1 } t (.requesting c))
      else none
    | _ => none
  | .finish t =>
    match s.doing t with
    | .requesting c => some (s.now (dropped s.sem) t (if c = .read then .downloading else .idle))
    | _ => none
  | .close t => if s.doing t = .downloading then some (s.now s.sem t .idle) else none

theorem move_step {m : Move T} {s s' : State T} (h : move m s = some s') : Step s s' := by
  cases m with
  | call t c =>
    simp only [move] at h
    split at h
    · rename_i hh
      cases h; exact .call _ _ _ hh.1 hh.2
    · cases h
  | waiting m =>
    simp only [move] at h
    split at h
    · rename_i sem hm
      split at h
      · rename_i hh
        cases h; exact .waiting _ _ (Semaphore.move_step hm) hh.1 hh.2
      · cases h
    · cases h
  | request t =>
    simp only [move] at h
    split at h
    · rename_i c hc
      split at h
      · rename_i hh
        cases h; exact .request _ _ _ hc hh
      · cases h
    · cases h
  | finish t =>
    simp only [move] at h
    split at h
    · rename_i c hc
      cases h; exact .finish _ _ _ hc
    · cases h
  | close t =>
    simp only [move] at h
    split at h
    · rename_i hh
      cases h; exact .close _ _ hh
    · cases h

def moves : List (Move T) → State T → Option (State T)
  | [], s => some s
  | m :: ms, s => (move m s).bind (moves ms)

theorem moves_steps {ms : List (Move T)} : ∀ {s s' : State T}, moves ms s = some s' → Relation.ReflTransGen Step s s' := by
  induction ms with
  | nil => intro s s' h; cases h; exact .refl
  | cons m ms ih =>
    intro s s' h
    obtain ⟨s1, h1, h2⟩ := Option.bind_eq_some_iff.mp h
    exact .head (move_step h1) (ih h2)

/-- The state after some moves, if they are possible. -/
def stateAfter (n : Nat) (ms : List (Move T)) : State T := (moves ms (init T n)).getD (init T n)

theorem stateAfter_reachable (n : Nat) (ms : List (Move T)) : Reachable n (stateAfter n ms) := by
  unfold stateAfter
  cases h : moves ms (init T n) with
  | none => exact .refl
  | some s => exact moves_steps h

end Backpak.Semaphored
