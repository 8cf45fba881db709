import Verif.Model.Semaphore

/-!
# Running the semaphore, for examples
-/

namespace Backpak.Semaphore

variable {T : Type} [DecidableEq T]

/-- What a thread can do. -/
inductive Move (T : Type)
  | enter (t : T)
  | exchange (t : T)
  | wait (t : T)
  | release
  | wake (t : T)

/-- Do it. -/
def move (m : Move T) (s : State T) : Option (State T) :=
  match m with
  | .enter t => if s.pc t = .out then some (at_ s t (.trying 1)) else none
  | .exchange t =>
    match s.pc t with
    | .trying prev =>
      if prev = s.count then some { at_ s t .out with count := s.count - 1, held := s.held + 1 }
      else if s.count = 0 then some (at_ s t .drowsy)
      else some (at_ s t (.trying s.count))
    | _ => none
  | .wait t =>
    if s.pc t = .drowsy then
      if s.count = 0 then some (at_ s t .asleep) else some (at_ s t (.trying 1))
    else none
  | .release =>
    if s.held = 0 then none
    else if s.count = 0 then some { s with held := s.held - 1, count := s.count + 1, wakers := s.wakers + 1 }
    else some { s with held := s.held - 1, count := s.count + 1 }
  | .wake t =>
    if s.wakers ≠ 0 ∧ s.pc t = .asleep then some { at_ s t (.trying 1) with wakers := s.wakers - 1 } else none

theorem move_step {m : Move T} {s s' : State T} (h : move m s = some s') : Step s s' := by
  cases m with
  | enter t =>
    simp only [move] at h
    split at h
    · cases h; exact .enter _ _ ‹_›
    · cases h
  | exchange t =>
    simp only [move] at h
    split at h
    · rename_i prev hp
      split at h
      · rename_i e
        subst e
        cases h; exact .take _ _ hp
      · split at h
        · cases h; exact .empty _ _ _ hp ‹_›
        · cases h; exact .retry _ _ _ hp ‹_›
    · cases h
  | wait t =>
    simp only [move] at h
    split at h
    · split at h
      · cases h; exact .sleep _ _ ‹_› ‹_›
      · cases h; exact .stay _ _ ‹_› ‹_›
    · cases h
  | release =>
    simp only [move] at h
    split at h
    · cases h
    · split at h
      · cases h; exact .post _ ‹_› ‹_›
      · cases h; exact .drop _ ‹_› ‹_›
  | wake t =>
    simp only [move] at h
    split at h
    · rename_i hh
      cases h; exact .wake _ _ hh.1 hh.2
    · cases h

def moves : List (Move T) → State T → Option (State T)
  | [], s => some s
  | m :: ms, s => (move m s).bind (moves ms)

theorem moves_steps {ms : List (Move T)} : ∀ {s s' : State T}, moves ms s = some s' → Relation.ReflTransGen Step s s' := by
  induction ms with
  | nil => intro s s' h; cases h; exact .refl
  | cons m ms ih =>
    intro s s' h
    obtain ⟨s1, h1, h2⟩ := Option.bind_eq_some_iff.mp h
    exact .head (move_step h1) (ih h2)

/-- The state after some moves, if they are possible. -/
def stateAfter (n : Nat) (ms : List (Move T)) : State T := (moves ms (init T n)).getD (init T n)

theorem stateAfter_reachable (n : Nat) (ms : List (Move T)) : Reachable n (stateAfter n ms) := by
  unfold stateAfter
  cases h : moves ms (init T n) with
  | none => exact .refl
  | some s => exact moves_steps h

end Backpak.Semaphore
