import Verif.Lemmas.Pipes

/-!
# C59 - A filtered write stores exactly what the filter makes of the object, or nothing
-/

namespace Backpak.C59

open Pipes

variable {σ : Type} {p : Prog σ} {cap : Nat} {x : Bytes}

/-- Once the program has exited, its output is what it is. -/
theorem exited {f f' : Feed σ} (h : Feed.Step p cap f f') {code : Nat} (hc : f.child = .exited code) :
    f'.child = .exited code ∧ f'.pout = f.pout := by
  cases h <;> first | exact ⟨hc, rfl⟩ | cases hc

/-- A thread that has ended stays so. -/
theorem ended {f f' : Feed σ} (h : Feed.Step p cap f f') {ok : Bool} (hc : f.copier = .ended ok) :
    f'.copier = .ended ok := by
  cases h <;> first | exact hc | cases hc

/-- What is true of a writer, by where it is. -/
def Inv (p : Prog σ) (x : Bytes) (s : Writer σ) : Prop :=
  match s.state with
  | .draining => s.feed.Inv p x s.temp ∧ s.told = none
  | .joining true => s.feed.Inv p x s.temp ∧ (∃ code, s.feed.child = .exited code) ∧ s.feed.pout = [] ∧ s.told = none
  | .joining false => s.told = none
  | .waiting => (∃ code, s.feed.child = .exited code ∧ p.Ran x s.temp code) ∧ s.told = none
  | .storing => p.Ran x s.temp 0 ∧ s.told = none
  | .succeeded => p.Ran x s.temp 0 ∧ s.told = some (s.temp.length, s.temp)
  | .failed => s.told = none ∨ (p.Ran x s.temp 0 ∧ s.told = some (s.temp.length, s.temp))

theorem step_inv {s s' : Writer σ} (h : Writer.Step p cap s s') (hi : Inv p x s) : Inv p x s' := by
  cases h with
  | @feed f f' temp state told hf =>
    unfold Inv at hi ⊢
    dsimp only at hi ⊢
    cases state with
    | draining => exact ⟨hf.inv hi.1, hi.2⟩
    | joining ok =>
      cases ok with
      | false => exact hi
      | true =>
        obtain ⟨h1, ⟨code, h2⟩, h3, h4⟩ := hi
        exact ⟨hf.inv h1, ⟨code, (exited hf h2).1⟩, (exited hf h2).2.trans h3, h4⟩
    | waiting =>
      obtain ⟨⟨code, h2, h3⟩, h4⟩ := hi
      exact ⟨⟨code, (exited hf h2).1, h3⟩, h4⟩
    | storing => exact hi
    | succeeded => exact hi
    | failed => exact hi
  | take _ => exact ⟨hi.1.take, hi.2⟩
  | full _ => exact hi.2
  | drained => exact ⟨hi.1, ⟨_, rfl⟩, rfl, hi.2⟩
  | joined =>
    obtain ⟨h1, ⟨code, h2⟩, h3, h4⟩ := hi
    dsimp only at h2 h3
    subst h2 h3
    refine ⟨⟨code, rfl, ?_⟩, h4⟩
    rcases h1.child with hb | hr
    · cases hb
    · simpa using hr
  | @unjoined src hold pin child pout temp told ok ok' _ =>
    cases ok' with
    | false => exact .inl hi
    | true => exact .inl hi.2.2.2
  | good =>
    obtain ⟨⟨code, h2, h3⟩, h4⟩ := hi
    dsimp only at h2
    cases h2
    exact ⟨h3, h4⟩
  | bad _ => exact .inl hi.2
  | store => exact ⟨hi.1, rfl⟩
  | unstore => exact .inr ⟨hi.1, rfl⟩

theorem inv {s : Writer σ} (h : Writer.Reachable p cap x s) : Inv p x s := by
  induction h with
  | refl => exact ⟨Feed.init_inv, rfl⟩
  | tail _ hs ih => exact step_inv hs ih

/-- Whatever the backend behind the filter is told to write is all that the program makes of all of the
object, the program having succeeded, and the length it is told is the length of that. -/
theorem stored {s : Writer σ} (h : Writer.Reachable p cap x s) {n : Nat} {y : Bytes} (ht : s.told = some (n, y)) :
    p.Ran x y 0 ∧ n = y.length := by
  have hi := inv h
  unfold Inv at hi
  have key : ∀ {t : Bytes}, p.Ran x t 0 → s.told = some (t.length, t) → p.Ran x y 0 ∧ n = y.length := by
    intro t h1 h2
    rw [ht] at h2
    cases h2
    exact ⟨h1, rfl⟩
  have none_ : s.told = none → p.Ran x y 0 ∧ n = y.length := by
    intro h
    rw [ht] at h
    cases h
  cases hs : s.state with
  | draining => rw [hs] at hi; exact none_ hi.2
  | joining ok =>
    rw [hs] at hi
    cases ok with
    | false => exact none_ hi
    | true => exact none_ hi.2.2.2
  | waiting => rw [hs] at hi; exact none_ hi.2
  | storing => rw [hs] at hi; exact none_ hi.2
  | succeeded => rw [hs] at hi; exact key hi.1 hi.2
  | failed =>
    rw [hs] at hi
    rcases hi with hi | hi
    · exact none_ hi
    · exact key hi.1 hi.2

/-- A write that succeeds has told the backend to write, and the backend did. -/
theorem success {s : Writer σ} (h : Writer.Reachable p cap x s) (hs : s.state = .succeeded) :
    ∃ y, s.told = some (y.length, y) ∧ p.Ran x y 0 := by
  have hi := inv h
  unfold Inv at hi
  rw [hs] at hi
  exact ⟨_, hi.2, hi.1⟩

/-- If the program computes a function, that is what is stored. -/
theorem stored_computes {f : Bytes → Option Bytes} (hf : p.Computes f) {s : Writer σ}
    (h : Writer.Reachable p cap x s) {n : Nat} {y : Bytes} (ht : s.told = some (n, y)) :
    f x = some y ∧ n = y.length :=
  ⟨(hf x y 0 (stored h ht).1).1 rfl, (stored h ht).2⟩

/-- If the program fails, nothing is stored and the write does not succeed. -/
theorem rejected {f : Bytes → Option Bytes} (hf : p.Computes f) (hx : f x = none) {s : Writer σ}
    (h : Writer.Reachable p cap x s) : s.told = none ∧ s.state ≠ .succeeded := by
  have h1 : s.told = none := by
    cases ht : s.told with
    | none => rfl
    | some t =>
      obtain ⟨n, y⟩ := t
      rw [(stored_computes hf h ht).1] at hx
      cases hx
  refine ⟨h1, fun hs => ?_⟩
  obtain ⟨y, hy, _⟩ := success h hs
  rw [h1] at hy
  cases hy

/-! ## An example: three bytes become three others -/

def g : UInt8 → UInt8 := fun b => b + 1

theorem runE : Writer.Reachable (Prog.each g) 2 [1, 2, 3]
    ⟨⟨[], [], .ended true, [], .exited 0, []⟩, [2, 3, 4], .succeeded, some (3, [2, 3, 4])⟩ := by
  refine .head (.feed (.fetch (a := [1, 2, 3]) (b := []) (by decide))) ?_
  refine .head (.feed (.feed (a := [1, 2]) (b := [3]) (by decide) (by decide))) ?_
  refine .head (.feed (.read (a := [1, 2]) (b := []) rfl (by decide))) ?_
  refine .head (.feed (.feed (a := [3]) (b := []) (by decide) (by decide))) ?_
  refine .head (.feed (.write (b := [2, 3]) (s' := .want) rfl)) ?_
  refine .head (.feed .finish) ?_
  refine .head (.feed (.push (a := [2, 3]) (b := []) (by decide) (by decide))) ?_
  refine .head (.take (a := [2]) (b := [3]) (by decide)) ?_
  refine .head (.feed (.read (a := [3]) (b := []) rfl (by decide))) ?_
  refine .head (.feed (.write (b := [4]) (s' := .want) rfl)) ?_
  refine .head (.feed .shut) ?_
  refine .head (.feed (.push (a := [4]) (b := []) (by decide) (by decide))) ?_
  refine .head (.feed (.readEnd rfl trivial)) ?_
  refine .head (.take (a := [3, 4]) (b := []) (by decide)) ?_
  refine .head (.feed (.exit (code := 0) rfl)) ?_
  refine .head .drained ?_
  refine .head (.feed .ends) ?_
  refine .head .joined ?_
  refine .head .good ?_
  exact .single .store

example : ([2, 3, 4] : Bytes) = [1, 2, 3].map g ∧ (3 : Nat) = ([2, 3, 4] : Bytes).length := by
  have := stored_computes (Prog.each_computes g) runE rfl
  exact ⟨by simpa using this.1.symm, this.2⟩

end Backpak.C59
