import Verif.Props.C57

/-!
# C58 - A filtered read ends, in success or in an error
-/

namespace Backpak.C58

open Pipes

variable {σ : Type} {p : Prog σ} {cap : Nat} {x : Bytes}

/-- While an object is being read, something can always happen: nobody waits for another in a circle,
whatever the sizes of the pipes and of what is read and written at a time. -/
theorem not_stuck (hcap : cap ≠ 0) {s : Reader σ} (h : s.state = .reading) : ∃ s', Reader.Step p cap s s' := by
  obtain ⟨f, got, state⟩ := s
  dsimp only at h
  subst h
  obtain ⟨src, hold, c, pin, child, pout⟩ := f
  cases pout with
  | cons y ys => exact ⟨_, .take (a := [y]) (b := ys) (by simp)⟩
  | nil =>
    rcases Feed.lively (p := p) hcap ⟨src, hold, c, pin, child, []⟩ with h | ⟨code, h⟩ | ⟨f', h⟩
    · exact absurd rfl h
    · dsimp only at h
      subst h
      by_cases h0 : code = 0
      · subst h0
        by_cases hc : ∃ ok, c = .ended ok
        · obtain ⟨ok, rfl⟩ := hc
          cases ok
          · exact ⟨_, .short⟩
          · exact ⟨_, .done⟩
        · exact ⟨_, .early (fun ok h => hc ⟨ok, h⟩)⟩
      · exact ⟨_, .bad h0⟩
    · exact ⟨_, .feed h⟩

/-- No run goes on for ever, if the program does not go on for ever by itself. -/
theorem ends (hs : p.Settles) : WellFounded (fun s' s : Reader σ => Reader.Step p cap s s') := by
  obtain ⟨rank, h1, h2⟩ := hs
  let phase : Reading → Nat := fun r => if r = .reading then 1 else 0
  let m : Reader σ → (Nat ×ₗ Nat ×ₗ Nat) ×ₗ Nat := fun s => toLex (s.feed.measure rank, phase s.state)
  refine Subrelation.wf (r := InvImage (· < ·) m) ?_ (InvImage.wf m wellFounded_lt)
  intro s' s h
  show toLex _ < toLex _
  rw [Prod.Lex.toLex_lt_toLex]
  cases h with
  | feed hf => exact .inl (hf.less h1 h2)
  | take ne => exact .inl (Feed.take_less ne)
  | bad _ => exact .inr ⟨rfl, by simp [phase]⟩
  | early _ => exact .inr ⟨rfl, by simp [phase]⟩
  | short => exact .inr ⟨rfl, by simp [phase]⟩
  | done => exact .inr ⟨rfl, by simp [phase]⟩

/-- So every run comes to an end, in success, an error or a panic. What is missing to the claim is that
there are no panics. -/
theorem comes_to_an_end_partial (hcap : cap ≠ 0) (hs : p.Settles) (s : Reader σ) :
    ∃ s', Relation.ReflTransGen (Reader.Step p cap) s s' ∧ s'.state ≠ .reading := by
  induction s using (ends (cap := cap) hs).induction with
  | h s ih =>
    by_cases h : s.state = .reading
    · obtain ⟨s1, h1⟩ := not_stuck (p := p) hcap h
      obtain ⟨s', h2, h3⟩ := ih s1 h1
      exact ⟨s', .head h1 h2, h3⟩
    · exact ⟨s, .refl, h⟩

/-- An error is the fault of the program, of the backend, or of a pipe to a program that was gone. -/
theorem failed_for_a_reason {s : Reader σ} (h : Reader.Reachable p cap x s) (hf : s.state = .failed) :
    s.feed.copier.Broken ∨ ∃ code, code ≠ 0 ∧ p.Ran x s.got code := (C57.inv h).2.2 hf

/-- The claim is false: though everything was copied, the program read it all and succeeded, and its
output was read, the reader panics, because the copying thread has dropped its end of the pipe but has not
ended yet. -/
theorem panics : ∃ s, Reader.Reachable (Prog.each C57.g) 1 [1] s ∧ s.feed.copier = .closed true ∧
    some s.got = (some ([1].map C57.g) : Option Bytes) ∧ s.state = .panicked := by
  refine ⟨⟨⟨[], [], .closed true, [], .exited 0, []⟩, [2], .panicked⟩, ?_, rfl, rfl, rfl⟩
  refine .head (.feed (.fetch (a := [1]) (b := []) (by decide))) ?_
  refine .head (.feed (.feed (a := [1]) (b := []) (by decide) (by decide))) ?_
  refine .head (.feed .finish) ?_
  refine .head (.feed .shut) ?_
  refine .head (.feed (.read (a := [1]) (b := []) rfl (by decide))) ?_
  refine .head (.feed (.write (b := [2]) (s' := .want) rfl)) ?_
  refine .head (.feed (.push (a := [2]) (b := []) (by decide) (by decide))) ?_
  refine .head (.feed (.readEnd rfl trivial)) ?_
  refine .head (.feed (.exit (code := 0) rfl)) ?_
  refine .head (.take (a := [2]) (b := []) (by decide)) ?_
  exact .single (.early (by simp))

example : (Prog.each C57.g).Settles ∧ (Reader.init (Prog.each C57.g) [1]).state = .reading :=
  ⟨Prog.each_settles _, rfl⟩

end Backpak.C58
