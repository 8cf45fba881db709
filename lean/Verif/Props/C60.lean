import Verif.Props.C59

/-!
# C60 - A filtered write ends, in success or in an error
-/

namespace Backpak.C60

open Pipes

variable {σ : Type} {p : Prog σ} {cap : Nat} {x : Bytes}

/-- While an object is being written, something can always happen, unless writing to the temporary file
failed. -/
theorem not_stuck_partial (hcap : cap ≠ 0) {s : Writer σ} (h : Writer.Reachable p cap x s)
    (hd : s.state ≠ .succeeded) (hf : s.state ≠ .failed) (hj : s.state ≠ .joining false) :
    ∃ s', Writer.Step p cap s s' := by
  have hi := C59.inv h
  clear h
  obtain ⟨⟨src, hold, c, pin, child, pout⟩, temp, state, told⟩ := s
  unfold C59.Inv at hi
  dsimp only at hi hd hf hj
  cases state with
  | draining =>
    cases pout with
    | cons y ys => exact ⟨_, .take (a := [y]) (b := ys) (by simp)⟩
    | nil =>
      rcases Feed.lively (p := p) hcap ⟨src, hold, c, pin, child, []⟩ with h | ⟨code, h⟩ | ⟨f', h⟩
      · exact absurd rfl h
      · dsimp only at h
        subst h
        exact ⟨_, .drained⟩
      · exact ⟨_, .feed h⟩
  | joining ok =>
    cases ok with
    | false => exact absurd rfl hj
    | true =>
      obtain ⟨_, ⟨code, h2⟩, _, _⟩ := hi
      rcases Feed.ending (p := p) (cap := cap) (f := ⟨src, hold, c, pin, child, pout⟩) h2 with ⟨ok, h⟩ | ⟨f', h⟩
      · dsimp only at h
        subst h
        cases ok with
        | false => exact ⟨_, .unjoined rfl⟩
        | true => exact ⟨_, .joined⟩
      · exact ⟨_, .feed h⟩
  | waiting =>
    obtain ⟨⟨code, h2, _⟩, _⟩ := hi
    subst h2
    by_cases h0 : code = 0
    · subst h0
      exact ⟨_, .good⟩
    · exact ⟨_, .bad h0⟩
  | storing => exact ⟨_, .store⟩
  | succeeded => exact absurd rfl hd
  | failed => exact absurd rfl hf

/-- No run goes on for ever, if the program does not go on for ever by itself. -/
theorem ends (hs : p.Settles) : WellFounded (fun s' s : Writer σ => Writer.Step p cap s s') := by
  obtain ⟨rank, h1, h2⟩ := hs
  let phase : Writing → Nat := fun
    | .draining => 4 | .joining _ => 3 | .waiting => 2 | .storing => 1 | .succeeded => 0 | .failed => 0
  let m : Writer σ → (Nat ×ₗ Nat ×ₗ Nat) ×ₗ Nat := fun s => toLex (s.feed.measure rank, phase s.state)
  refine Subrelation.wf (r := InvImage (· < ·) m) ?_ (InvImage.wf m wellFounded_lt)
  intro s' s h
  show toLex _ < toLex _
  rw [Prod.Lex.toLex_lt_toLex]
  cases h with
  | feed hf => exact .inl (hf.less h1 h2)
  | take ne => exact .inl (Feed.take_less ne)
  | full ne => exact .inl (Feed.take_less ne)
  | drained => exact .inr ⟨rfl, by simp [phase]⟩
  | joined => exact .inr ⟨rfl, by simp [phase]⟩
  | unjoined _ => exact .inr ⟨rfl, by simp [phase]⟩
  | good => exact .inr ⟨rfl, by simp [phase]⟩
  | bad _ => exact .inr ⟨rfl, by simp [phase]⟩
  | store => exact .inr ⟨rfl, by simp [phase]⟩
  | unstore => exact .inr ⟨rfl, by simp [phase]⟩

/-- So a write comes to an end, unless writing to the temporary file fails. -/
theorem comes_to_an_end_partial (hcap : cap ≠ 0) (hs : p.Settles) {s : Writer σ} (h : Writer.Reachable p cap x s) :
    ∃ s', Relation.ReflTransGen (Writer.Step p cap) s s' ∧
      (s'.state = .succeeded ∨ s'.state = .failed ∨ s'.state = .joining false) := by
  induction s using (ends (cap := cap) hs).induction with
  | h s ih =>
    by_cases hd : s.state = .succeeded ∨ s.state = .failed ∨ s.state = .joining false
    · exact ⟨s, .refl, hd⟩
    · obtain ⟨s1, h1⟩ := not_stuck_partial hcap h (fun e => hd (.inl e)) (fun e => hd (.inr (.inl e)))
        (fun e => hd (.inr (.inr e)))
      obtain ⟨s', h2, h3⟩ := ih s1 h1 (.tail h h1)
      exact ⟨s', .head h1 h2, h3⟩

/-! ## A full disk -/

/-- Some zeros. -/
def z (n : Nat) : Bytes := List.replicate n 0

theorem z_add (a b : Nat) : z (a + b) = z a ++ z b := (List.replicate_append_replicate).symm

theorem z_ne {n : Nat} (h : n ≠ 0) : z n ≠ [] := by
  unfold z
  simpa using h

theorem z_len (n : Nat) : (z n).length = n := List.length_replicate

theorem z_map (n : Nat) : (z n).map id = z n := List.map_id _

/-- `cat` -/
def cat : Prog Prog.EachState := Prog.each id

theorem cat_read (n : Nat) (h : n ≠ 0) {src hold : Bytes} {c : Copier} {pin pout : Bytes} {cap : Nat} :
    Feed.Step cat cap ⟨src, hold, c, z n ++ pin, .running [] .want, pout⟩
      ⟨src, hold, c, pin, .running [] (.have_ (z n)), pout⟩ := by
  have := Feed.Step.read (p := cat) (cap := cap) (src := src) (hold := hold) (c := c) (a := z n) (b := pin) (s := .want)
    (pout := pout) rfl (z_ne h)
  simpa [z_ne h] using this

/-- The state in which all wait for one another: the pipe to the program is full, so the thread that
copies to it waits; the pipe from it is full, so the program waits; and nobody reads from that any more,
since the failure to write to the temporary file is only returned once the thread has ended. -/
def stuckAt (cap : Nat) : Writer Prog.EachState :=
  ⟨⟨[], z 1, .copying, z cap, .running (z cap) .want, z cap⟩, [], .joining false, none⟩

theorem stuck (cap : Nat) (h : cap ≠ 0) : ¬ ∃ s', Writer.Step cat cap (stuckAt cap) s' := by
  rintro ⟨s', hs⟩
  generalize hq : stuckAt cap = s at hs
  unfold stuckAt at hq
  have hz : z cap ≠ [] := z_ne h
  cases hs with
  | feed hf =>
    cases hq
    generalize hq : (⟨[], z 1, .copying, z cap, .running (z cap) .want, z cap⟩ : Feed Prog.EachState) = f at hf
    cases hf with
    | fetch _ => injection hq with _ h2 _ _ _ _; cases h2
    | finish => injection hq with _ h2 _ _ _ _; cases h2
    | break_ => injection hq with _ h2 _ _ _ _; cases h2
    | @feed src a b pin pend s pout ne room =>
      injection hq with _ _ _ h4 _ _
      rw [← h4, z_len] at room
      have := List.length_pos_iff.mpr ne
      omega
    | gone _ => injection hq with _ _ _ _ h5 _; cases h5
    | shut => injection hq with _ _ h3 _ _ _; cases h3
    | ends => injection hq with _ _ h3 _ _ _; cases h3
    | read _ _ => injection hq with _ _ _ _ h5 _; injection h5 with h5 _; exact hz h5
    | readEnd _ _ => injection hq with _ _ _ _ h5 _; injection h5 with h5 _; exact hz h5
    | write _ => injection hq with _ _ _ _ h5 _; injection h5 with h5 _; exact hz h5
    | @push src hold c pin a b s pout ne room =>
      injection hq with _ _ _ _ _ h6
      rw [← h6, z_len] at room
      have := List.length_pos_iff.mpr ne
      omega
    | exit _ => injection hq with _ _ _ _ h5 _; injection h5 with h5 _; exact hz h5
  | take _ => injection hq with _ _ h3 _; cases h3
  | full _ => injection hq with _ _ h3 _; cases h3
  | drained => injection hq with _ _ h3 _; cases h3
  | joined => injection hq with _ _ h3 _; cases h3
  | unjoined _ => injection hq with h1 _ _ _; injection h1 with _ _ h3 _ _ _; cases h3
  | good => injection hq with _ _ h3 _; cases h3
  | bad _ => injection hq with _ _ h3 _; cases h3
  | store => injection hq with _ _ h3 _; cases h3
  | unstore => injection hq with _ _ h3 _; cases h3

theorem reaches (cap : Nat) (h : cap ≠ 0) :
    Writer.Reachable cat cap (z (1 + (cap + (cap + (cap + 1))))) (stuckAt cap) := by
  have hz : ∀ n, n ≠ 0 → z n ≠ [] := fun n => z_ne
  have h1 : z 1 ≠ [] := z_ne (by omega)
  unfold Writer.Reachable Writer.init Feed.init
  -- the thread reads all of the object, and writes one byte of it
  have f1 : Feed.Step cat cap ⟨z (1 + (cap + (cap + (cap + 1)))), [], .copying, [], .running [] .want, []⟩
      ⟨[], z (1 + (cap + (cap + (cap + 1)))), .copying, [], .running [] .want, []⟩ := by
    have := Feed.Step.fetch (p := cat) (cap := cap) (a := z (1 + (cap + (cap + (cap + 1))))) (b := []) (pin := [])
      (child := .running [] .want) (pout := []) (z_ne (by omega))
    simpa using this
  have f2 : Feed.Step cat cap ⟨[], z (1 + (cap + (cap + (cap + 1)))), .copying, [], .running [] .want, []⟩
      ⟨[], z (cap + (cap + (cap + 1))), .copying, z 1, .running [] .want, []⟩ := by
    have := Feed.Step.feed (p := cat) (cap := cap) (src := []) (a := z 1) (b := z (cap + (cap + (cap + 1)))) (pin := [])
      (pend := []) (s := .want) (pout := []) h1 (by simp [z_len]; omega)
    simpa [← z_add] using this
  have f3 : Feed.Step cat cap ⟨[], z (cap + (cap + (cap + 1))), .copying, z 1, .running [] .want, []⟩
      ⟨[], z (cap + (cap + (cap + 1))), .copying, [], .running [] (.have_ (z 1)), []⟩ := by
    simpa using cat_read 1 (by omega) (pin := [])
  have f4 : Feed.Step cat cap ⟨[], z (cap + (cap + (cap + 1))), .copying, [], .running [] (.have_ (z 1)), []⟩
      ⟨[], z (cap + (cap + (cap + 1))), .copying, [], .running (z 1) .want, []⟩ := .write rfl
  have f5 : Feed.Step cat cap ⟨[], z (cap + (cap + (cap + 1))), .copying, [], .running (z 1) .want, []⟩
      ⟨[], z (cap + (cap + (cap + 1))), .copying, [], .running [] .want, z 1⟩ := by
    have := Feed.Step.push (p := cat) (cap := cap) (src := []) (hold := z (cap + (cap + (cap + 1)))) (c := .copying)
      (pin := []) (a := z 1) (b := []) (s := .want) (pout := []) h1 (by simp [z_len]; omega)
    simpa using this
  -- that byte cannot be written to the temporary file
  have w6 : Writer.Step cat cap ⟨⟨[], z (cap + (cap + (cap + 1))), .copying, [], .running [] .want, z 1⟩, [], .draining, none⟩
      ⟨⟨[], z (cap + (cap + (cap + 1))), .copying, [], .running [] .want, []⟩, [], .joining false, none⟩ := by
    have := Writer.Step.full (p := cat) (cap := cap) (src := []) (hold := z (cap + (cap + (cap + 1)))) (c := .copying)
      (pin := []) (child := .running [] .want) (a := z 1) (b := []) (temp := []) (told := none) h1
    simpa using this
  -- the program fills the pipe from it
  have f7 : Feed.Step cat cap ⟨[], z (cap + (cap + (cap + 1))), .copying, [], .running [] .want, []⟩
      ⟨[], z (cap + (cap + 1)), .copying, z cap, .running [] .want, []⟩ := by
    have := Feed.Step.feed (p := cat) (cap := cap) (src := []) (a := z cap) (b := z (cap + (cap + 1))) (pin := [])
      (pend := []) (s := .want) (pout := []) (z_ne h) (by simp [z_len])
    simpa [← z_add] using this
  have f8 : Feed.Step cat cap ⟨[], z (cap + (cap + 1)), .copying, z cap, .running [] .want, []⟩
      ⟨[], z (cap + (cap + 1)), .copying, [], .running [] (.have_ (z cap)), []⟩ := by
    simpa using cat_read cap h (pin := [])
  have f9 : Feed.Step cat cap ⟨[], z (cap + (cap + 1)), .copying, [], .running [] (.have_ (z cap)), []⟩
      ⟨[], z (cap + (cap + 1)), .copying, [], .running (z cap) .want, []⟩ := .write rfl
  have f10 : Feed.Step cat cap ⟨[], z (cap + (cap + 1)), .copying, [], .running (z cap) .want, []⟩
      ⟨[], z (cap + (cap + 1)), .copying, [], .running [] .want, z cap⟩ := by
    have := Feed.Step.push (p := cat) (cap := cap) (src := []) (hold := z (cap + (cap + 1))) (c := .copying)
      (pin := []) (a := z cap) (b := []) (s := .want) (pout := []) (z_ne h) (by simp [z_len])
    simpa using this
  -- it reads more, and has nowhere to write it
  have f11 : Feed.Step cat cap ⟨[], z (cap + (cap + 1)), .copying, [], .running [] .want, z cap⟩
      ⟨[], z (cap + 1), .copying, z cap, .running [] .want, z cap⟩ := by
    have := Feed.Step.feed (p := cat) (cap := cap) (src := []) (a := z cap) (b := z (cap + 1)) (pin := [])
      (pend := []) (s := .want) (pout := z cap) (z_ne h) (by simp [z_len])
    simpa [← z_add] using this
  have f12 : Feed.Step cat cap ⟨[], z (cap + 1), .copying, z cap, .running [] .want, z cap⟩
      ⟨[], z (cap + 1), .copying, [], .running [] (.have_ (z cap)), z cap⟩ := by
    simpa using cat_read cap h (pin := [])
  have f13 : Feed.Step cat cap ⟨[], z (cap + 1), .copying, [], .running [] (.have_ (z cap)), z cap⟩
      ⟨[], z (cap + 1), .copying, [], .running (z cap) .want, z cap⟩ := .write rfl
  have f14 : Feed.Step cat cap ⟨[], z (cap + 1), .copying, [], .running (z cap) .want, z cap⟩
      ⟨[], z 1, .copying, z cap, .running (z cap) .want, z cap⟩ := by
    have := Feed.Step.feed (p := cat) (cap := cap) (src := []) (a := z cap) (b := z 1) (pin := [])
      (pend := z cap) (s := .want) (pout := z cap) (z_ne h) (by simp [z_len])
    simpa [← z_add] using this
  exact .head (.feed f1) (.head (.feed f2) (.head (.feed f3) (.head (.feed f4) (.head (.feed f5) (.head w6
    (.head (.feed f7) (.head (.feed f8) (.head (.feed f9) (.head (.feed f10) (.head (.feed f11) (.head (.feed f12)
    (.head (.feed f13) (.single (.feed f14))))))))))))))

/-- The claim is false: whatever the size of the pipes, if writing to the temporary file fails, the write
may wait for ever, with the failure never reported. -/
theorem full_disk_hangs (cap : Nat) (h : cap ≠ 0) : ∃ (x : Bytes) (s : Writer Prog.EachState),
    Writer.Reachable cat cap x s ∧ s.state = .joining false ∧ ¬ ∃ s', Writer.Step cat cap s s' :=
  ⟨_, stuckAt cap, reaches cap h, rfl, stuck cap h⟩

example : cat.Settles ∧ Writer.Reachable cat 65536 [1] (Writer.init cat [1]) := ⟨Prog.each_settles _, .refl⟩

end Backpak.C60
