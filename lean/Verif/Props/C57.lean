import Verif.Lemmas.Pipes

/-!
# C57 - A filtered read gives all of the object or fails
-/

namespace Backpak.C57

open Pipes

variable {σ : Type} {p : Prog σ} {cap : Nat} {x : Bytes}

theorem inv {s : Reader σ} (h : Reader.Reachable p cap x s) : s.feed.Inv p x s.got ∧
    (s.state = .complete → p.Ran x s.got 0) ∧
    (s.state = .failed → s.feed.copier.Broken ∨ ∃ code, code ≠ 0 ∧ p.Ran x s.got code) := by
  induction h with
  | refl => exact ⟨Feed.init_inv, fun h => (by cases h), fun h => (by cases h)⟩
  | @tail s s' _ hs ih =>
    obtain ⟨hi, hc, hf⟩ := ih
    cases hs with
    | @feed f f' got state hst =>
      refine ⟨hst.inv hi, hc, fun h => ?_⟩
      rcases hf h with hb | hr
      · left
        cases hst <;> first | exact hb | exact hb.elim | rfl
      · exact .inr hr
    | take _ => exact ⟨hi.take, fun h => (by cases h), fun h => (by cases h)⟩
    | @bad src hold c pin code got hne =>
      refine ⟨hi, fun h => (by cases h), fun _ => ?_⟩
      rcases hi.child with hb | hr
      · exact .inl hb
      · exact .inr ⟨code, hne, by simpa using hr⟩
    | early _ => exact ⟨hi, fun h => (by cases h), fun h => (by cases h)⟩
    | short => exact ⟨hi, fun h => (by cases h), fun _ => .inl rfl⟩
    | done =>
      refine ⟨hi, fun _ => ?_, fun h => (by cases h)⟩
      rcases hi.child with hb | hr
      · cases hb
      · simpa using hr

/-- Whoever reads to the end without an error has all that the program makes of the whole object, and
the program succeeded: no failure of the backend, of the program or of a pipe goes unnoticed, whatever
the order of events. -/
theorem complete {s : Reader σ} (h : Reader.Reachable p cap x s) (hd : s.state = .complete) : p.Ran x s.got 0 :=
  (inv h).2.1 hd

/-- If the program computes a function, that is what was read. -/
theorem complete_computes {f : Bytes → Option Bytes} (hf : p.Computes f) {s : Reader σ}
    (h : Reader.Reachable p cap x s) (hd : s.state = .complete) : f x = some s.got :=
  (hf x s.got 0 (complete h hd)).1 rfl

/-- An object the program does not accept cannot be read. -/
theorem rejected {f : Bytes → Option Bytes} (hf : p.Computes f) (hx : f x = none) {s : Reader σ}
    (h : Reader.Reachable p cap x s) : s.state ≠ .complete := by
  intro hd
  rw [complete_computes hf h hd] at hx
  cases hx

/-- What went through a filter and comes back through a program that undoes it is what was there. -/
theorem round_trip {τ : Type} {q : Prog τ} {f u : Bytes → Option Bytes} (hq : q.Computes f) (hp : p.Computes u)
    (hfu : ∀ x y, f x = some y → u y = some x) {y : Bytes} (hy : q.Ran x y 0) {s : Reader σ}
    (h : Reader.Reachable p cap y s) (hd : s.state = .complete) : s.got = x := by
  have h1 := hfu x y ((hq x y 0 hy).1 rfl)
  rw [complete_computes hp h hd] at h1
  cases h1
  rfl

/-! ## An example: two bytes through a pipe with room for one -/

def g : UInt8 → UInt8 := fun b => b + 1

/-- The reader after each of its steps, up to the last. -/
theorem runE : Reader.Reachable (Prog.each g) 1 [1, 2]
    ⟨⟨[], [], .ended true, [], .exited 0, []⟩, [2, 3], .complete⟩ := by
  refine .head (.feed (.fetch (a := [1, 2]) (b := []) (by decide))) ?_
  refine .head (.feed (.feed (a := [1]) (b := [2]) (by decide) (by decide))) ?_
  refine .head (.feed (.read (a := [1]) (b := []) rfl (by decide))) ?_
  refine .head (.feed (.feed (a := [2]) (b := []) (by decide) (by decide))) ?_
  refine .head (.feed (.write (b := [2]) (s' := .want) rfl)) ?_
  refine .head (.feed .finish) ?_
  refine .head (.feed (.push (a := [2]) (b := []) (by decide) (by decide))) ?_
  refine .head (.take (a := [2]) (b := []) (by decide)) ?_
  refine .head (.feed (.read (a := [2]) (b := []) rfl (by decide))) ?_
  refine .head (.feed (.write (b := [3]) (s' := .want) rfl)) ?_
  refine .head (.feed .shut) ?_
  refine .head (.feed (.push (a := [3]) (b := []) (by decide) (by decide))) ?_
  refine .head (.feed (.readEnd rfl trivial)) ?_
  refine .head (.take (a := [3]) (b := []) (by decide)) ?_
  refine .head (.feed .ends) ?_
  refine .head (.feed (.exit (code := 0) rfl)) ?_
  exact .single .done

example : ([2, 3] : Bytes) = [1, 2].map g := by
  have := complete_computes (Prog.each_computes g) runE rfl
  simpa using this.symm

/-- The same two bytes with a backend that fails after the first: the reader has something, and never all. -/
example : ∃ s, Reader.Reachable (Prog.each g) 1 [1, 2] s ∧ s.got = [2] ∧ s.state = .failed := by
  refine ⟨⟨⟨[2], [], .ended false, [], .exited 0, []⟩, [2], .failed⟩, ?_, rfl, rfl⟩
  refine .head (.feed (.fetch (a := [1]) (b := [2]) (by decide))) ?_
  refine .head (.feed (.feed (a := [1]) (b := []) (by decide) (by decide))) ?_
  refine .head (.feed (.read (a := [1]) (b := []) rfl (by decide))) ?_
  refine .head (.feed .break_) ?_
  refine .head (.feed (.write (b := [2]) (s' := .want) rfl)) ?_
  refine .head (.feed (.push (a := [2]) (b := []) (by decide) (by decide))) ?_
  refine .head (.take (a := [2]) (b := []) (by decide)) ?_
  refine .head (.feed .shut) ?_
  refine .head (.feed (.readEnd rfl trivial)) ?_
  refine .head (.feed (.exit (code := 0) rfl)) ?_
  refine .head (.feed .ends) ?_
  exact .single .short

end Backpak.C57
