import Verif.Spec.Program
import Mathlib.Data.Prod.Lex

/-!
# What stays true while a program is fed
-/

namespace Backpak.Pipes

variable {σ : Type} {p : Prog σ} {cap : Nat} {x : Bytes}

/-- The copying thread has failed. -/
def Copier.Broken : Copier → Prop
  | .closing ok | .closed ok | .ended ok => ok = false
  | .copying => False

/-- What the program was given and what came of it: `out` is what was read of its output. -/
structure Feed.Inv (p : Prog σ) (x out : Bytes) (f : Feed σ) : Prop where
  all : f.copier = .copying ∨ f.copier.Broken ∨ (f.src = [] ∧ f.hold = [])
  child : f.copier.Broken ∨ match f.child with
    | .running pend s => p.At x (f.pin ++ f.hold ++ f.src) (out ++ f.pout ++ pend) s
    | .exited code => p.Ran x (out ++ f.pout) code

theorem Feed.init_inv : (Feed.init p x).Inv p x [] := ⟨.inl rfl, .inr .start⟩

theorem Feed.Step.inv {out : Bytes} {f f' : Feed σ} (h : Feed.Step p cap f f') (hi : f.Inv p x out) : f'.Inv p x out := by
  obtain ⟨ha, hc⟩ := hi
  cases h with
  | @fetch a b pin child pout ne =>
    refine ⟨.inl rfl, ?_⟩
    rcases hc with hc | hc
    · exact hc.elim
    · refine .inr ?_
      cases child <;> simpa [List.append_assoc] using hc
  | @finish pin child pout =>
    refine ⟨.inr (.inr ⟨rfl, rfl⟩), ?_⟩
    rcases hc with hc | hc
    · exact hc.elim
    · exact .inr hc
  | break_ => exact ⟨.inr (.inl rfl), .inl rfl⟩
  | @feed src a b pin pend s pout ne room =>
    refine ⟨.inl rfl, ?_⟩
    rcases hc with hc | hc
    · exact hc.elim
    · refine .inr ?_
      simpa [List.append_assoc] using hc
  | gone => exact ⟨.inr (.inl rfl), .inl rfl⟩
  | shut =>
    refine ⟨?_, ?_⟩
    · rcases ha with ha | ha | ha
      · cases ha
      · exact .inr (.inl ha)
      · exact .inr (.inr ha)
    · exact hc
  | ends =>
    refine ⟨?_, ?_⟩
    · rcases ha with ha | ha | ha
      · cases ha
      · exact .inr (.inl ha)
      · exact .inr (.inr ha)
    · exact hc
  | @read src hold c a b s k pout hn ne =>
    refine ⟨ha, ?_⟩
    rcases hc with hc | hc
    · exact .inl hc
    · refine .inr ?_
      refine .read (a := a) ?_ hn ne
      simpa [List.append_assoc] using hc
  | @readEnd src hold c s k pout hn hshut =>
    refine ⟨ha, ?_⟩
    rcases hc with hc | hc
    · exact .inl hc
    · rcases ha with ha | ha | ⟨h1, h2⟩
      · dsimp only at ha
        rw [ha] at hshut
        exact hshut.elim
      · exact .inl ha
      · dsimp only at h1 h2
        subst h1 h2
        exact .inr (.readEnd hc hn)
  | @write src hold c pin s b s' pout hn =>
    refine ⟨ha, ?_⟩
    rcases hc with hc | hc
    · exact .inl hc
    · refine .inr ?_
      refine .write (b := b) ?_ hn
      simpa using hc
  | @push src hold c pin a b s pout ne room =>
    refine ⟨ha, ?_⟩
    rcases hc with hc | hc
    · exact .inl hc
    · refine .inr ?_
      simpa [List.append_assoc] using hc
  | @exit src hold c pin s code pout hn =>
    refine ⟨ha, ?_⟩
    rcases hc with hc | hc
    · exact .inl hc
    · refine .inr ⟨pin ++ hold ++ src, s, ?_, hn⟩
      simpa using hc

/-- Reading output keeps it. -/
theorem Feed.Inv.take {out a b : Bytes} {src hold c pin} {child : Child σ}
    (h : (⟨src, hold, c, pin, child, a ++ b⟩ : Feed σ).Inv p x out) :
    (⟨src, hold, c, pin, child, b⟩ : Feed σ).Inv p x (out ++ a) := by
  obtain ⟨ha, hc⟩ := h
  refine ⟨ha, ?_⟩
  rcases hc with hc | hc
  · exact .inl hc
  · refine .inr ?_
    cases child <;> simpa [List.append_assoc] using hc

/-- While output is being read, something can always happen: output can be read, the program has exited,
or one of the two can go on. -/
theorem Feed.lively (hcap : cap ≠ 0) (f : Feed σ) :
    f.pout ≠ [] ∨ (∃ code, f.child = .exited code) ∨ ∃ f', Feed.Step p cap f f' := by
  obtain ⟨src, hold, c, pin, child, pout⟩ := f
  cases pout with
  | cons y ys => exact .inl (by simp)
  | nil =>
  cases child with
  | exited code => exact .inr (.inl ⟨code, rfl⟩)
  | running pend s =>
  refine .inr (.inr ?_)
  cases pend with
  | cons y ys => exact ⟨_, .push (a := [y]) (b := ys) (by simp) (by simp; omega)⟩
  | nil =>
  cases hn : p.next s with
  | write b s' => exact ⟨_, .write hn⟩
  | exit code => exact ⟨_, .exit hn⟩
  | read k =>
  cases pin with
  | cons y ys => exact ⟨_, .read (a := [y]) (b := ys) hn (by simp)⟩
  | nil =>
  cases c with
  | closing ok => exact ⟨_, .shut⟩
  | closed ok => exact ⟨_, .ends⟩
  | ended ok => exact ⟨_, .readEnd hn trivial⟩
  | copying =>
  cases hold with
  | cons y ys => exact ⟨_, .feed (a := [y]) (b := ys) (by simp) (by simp; omega)⟩
  | nil =>
  cases src with
  | nil => exact ⟨_, .finish⟩
  | cons y ys => exact ⟨_, .fetch (a := [y]) (b := ys) (by simp)⟩

/-- Once the program has exited, the copying thread comes to its end. -/
theorem Feed.ending {f : Feed σ} {code : Nat} (h : f.child = .exited code) :
    (∃ ok, f.copier = .ended ok) ∨ ∃ f', Feed.Step p cap f f' := by
  obtain ⟨src, hold, c, pin, child, pout⟩ := f
  dsimp only at h
  subst h
  cases c with
  | ended ok => exact .inl ⟨ok, rfl⟩
  | closing ok => exact .inr ⟨_, .shut⟩
  | closed ok => exact .inr ⟨_, .ends⟩
  | copying =>
    cases hold with
    | cons y ys => exact .inr ⟨_, .gone (by simp)⟩
    | nil =>
      cases src with
      | nil => exact .inr ⟨_, .finish⟩
      | cons y ys => exact .inr ⟨_, .fetch (a := [y]) (b := ys) (by simp)⟩

/-! ## Every run ends -/

/-- How far the copying thread is from its end. -/
def Copier.left : Copier → Nat
  | .copying => 3
  | .closing _ => 2
  | .closed _ => 1
  | .ended _ => 0

/-- What the program has not read yet. -/
def Feed.unread (f : Feed σ) : Nat := f.pin.length + f.hold.length + f.src.length

/-- How far the program is from reading or exiting. -/
def Child.rank (rank : σ → Nat) : Child σ → Nat
  | .running _ s => rank s + 1
  | .exited _ => 0

def Child.pend : Child σ → Bytes
  | .running pend _ => pend
  | .exited _ => []

/-- Bytes that have yet to move. -/
def Feed.moves (f : Feed σ) : Nat :=
  2 * f.src.length + f.hold.length + f.copier.left + 2 * f.child.pend.length + f.pout.length

/-- One measure, lexicographic. -/
def Feed.measure (rank : σ → Nat) (f : Feed σ) : Nat ×ₗ Nat ×ₗ Nat :=
  toLex (f.unread, toLex (f.child.rank rank, f.moves))

theorem lex_lt {a b c a' b' c' : Nat} (h : a' < a ∨ (a' = a ∧ (b' < b ∨ (b' = b ∧ c' < c)))) :
    (toLex (a', toLex (b', c')) : Nat ×ₗ Nat ×ₗ Nat) < toLex (a, toLex (b, c)) := by
  rw [Prod.Lex.toLex_lt_toLex]
  rcases h with h | ⟨rfl, h⟩
  · exact .inl h
  · refine .inr ⟨rfl, ?_⟩
    rw [Prod.Lex.toLex_lt_toLex]
    rcases h with h | ⟨rfl, h⟩
    · exact .inl h
    · exact .inr ⟨rfl, h⟩

theorem Feed.Step.less {rank : σ → Nat} (h1 : ∀ s k, p.next s = .read k → rank (k []) < rank s)
    (h2 : ∀ s b s', p.next s = .write b s' → rank s' < rank s) {f f' : Feed σ} (h : Feed.Step p cap f f') :
    f'.measure rank < f.measure rank := by
  apply lex_lt
  cases h with
  | @fetch a b pin child pout ne =>
    have := List.length_pos_iff.mpr ne
    simp only [true_and, unread, moves, List.length_append, List.length_nil]
    omega
  | finish => simp only [true_and, unread, moves, Copier.left]; omega
  | break_ => simp only [true_and, unread, moves, Copier.left]; omega
  | @feed src a b pin pend s pout ne room =>
    have := List.length_pos_iff.mpr ne
    simp only [true_and, unread, moves, List.length_append]
    omega
  | gone => simp only [true_and, unread, moves, Copier.left]; omega
  | shut => simp only [true_and, unread, moves, Copier.left]; omega
  | ends => simp only [true_and, unread, moves, Copier.left]; omega
  | @read src hold c a b s k pout hn ne =>
    have := List.length_pos_iff.mpr ne
    simp only [true_and, unread, List.length_append]
    omega
  | @readEnd src hold c s k pout hn hs =>
    have := h1 _ _ hn
    simp only [true_and, unread, Child.rank]
    omega
  | @write src hold c pin s b s' pout hn =>
    have := h2 _ _ _ hn
    simp only [true_and, unread, Child.rank]
    omega
  | @push src hold c pin a b s pout ne room =>
    have := List.length_pos_iff.mpr ne
    simp only [true_and, unread, moves, Child.rank, Child.pend, List.length_append]
    omega
  | exit => simp only [true_and, unread, Child.rank]; omega

/-- Taking bytes from the output makes the measure smaller. -/
theorem Feed.take_less {rank : σ → Nat} {src hold c pin} {child : Child σ} {a b : Bytes} (ne : a ≠ []) :
    (⟨src, hold, c, pin, child, b⟩ : Feed σ).measure rank < (⟨src, hold, c, pin, child, a ++ b⟩ : Feed σ).measure rank := by
  have := List.length_pos_iff.mpr ne
  apply lex_lt
  simp only [true_and, unread, moves, List.length_append]
  omega

end Backpak.Pipes
