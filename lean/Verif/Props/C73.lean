import Verif.Model.Trial
import Verif.Props.C60

/-!
# C73: `init` accepts a filter exactly if it can be undone on a text, and says so

False for programs that do not undo one another: `init` may then wait for ever instead (`wrong_pair_hangs`).
-/

namespace Backpak.C73

open Pipes Trial

variable {σ τ : Type} {p : Prog σ} {q : Prog τ} {cap : Nat} {plain : Bytes}

/-! ## What to say -/

/-- A program reads all its input before it exits. -/
def ReadsAll (p : Prog σ) (x : Bytes) : Prop :=
  ∀ rest out s code, p.At x rest out s → p.next s = .exit code → rest = []

/-- A program never has more than some bytes written. -/
def Terse (p : Prog σ) (x : Bytes) (n : Nat) : Prop := ∀ rest out s, p.At x rest out s → out.length ≤ n

theorem at_suffix {x rest out : Bytes} {s : σ} (h : p.At x rest out s) : rest.length ≤ x.length := by
  induction h with
  | start => exact le_rfl
  | read _ _ _ ih => rw [List.length_append] at ih; omega
  | readEnd _ _ ih => exact ih
  | write _ _ ih => exact ih

/-! ## One program -/

section
variable {x : Bytes}

/-- What is true all the time. -/
structure Inv (p : Prog σ) (x : Bytes) (h : Half σ) : Prop where
  feed : h.feed.Inv p x h.got
  /-- writing fails only if the program is gone -/
  gone : h.feed.copier.Broken → h.feed.hold ≠ [] ∧ ∃ code, h.feed.child = .exited code
  /-- what a program leaves unread stays where it is -/
  left : ∀ code, h.feed.child = .exited code → ∃ s out,
    p.At x (h.feed.pin ++ h.feed.hold ++ h.feed.src) out s ∧ p.next s = .exit code
  read : h.state = .reading ∨ (∃ code, h.state = .over code) → h.feed.copier = .ended true
  over : ∀ code, h.state = .over code → h.feed.child = .exited code ∧ h.feed.pout = []
  broken : h.state = .broken → h.feed.copier = .ended false

theorem inv_init : Inv p x (.init p x) where
  feed := Feed.init_inv
  gone := fun h => h.elim
  left := fun _ h => by cases h
  read := fun h => by rcases h with h | ⟨_, h⟩ <;> cases h
  over := fun _ h => by cases h
  broken := fun h => by cases h

theorem inv_feed {f f' : Feed σ} {got : Bytes} {state : Trying} (hi : Inv p x ⟨f, got, state⟩)
    (h : Feed.Step p cap f f') (hb : f'.copier = .closing false → f'.hold ≠ []) : Inv p x ⟨f', got, state⟩ where
  feed := h.inv hi.feed
  gone := by
    have hg := hi.gone
    intro hB
    cases h with
    | fetch _ => exact hB.elim
    | finish => cases hB
    | break_ => exact absurd rfl (hb rfl)
    | feed _ _ => exact hB.elim
    | gone ne => exact ⟨ne, _, rfl⟩
    | shut => exact hg hB
    | ends => exact hg hB
    | read _ _ => exact ⟨(hg hB).1, by obtain ⟨_, _, h⟩ := hg hB; cases h⟩
    | readEnd _ _ => exact ⟨(hg hB).1, by obtain ⟨_, _, h⟩ := hg hB; cases h⟩
    | write _ => exact ⟨(hg hB).1, by obtain ⟨_, _, h⟩ := hg hB; cases h⟩
    | push _ _ => exact ⟨(hg hB).1, by obtain ⟨_, _, h⟩ := hg hB; cases h⟩
    | exit _ => exact ⟨(hg hB).1, _, rfl⟩
  left := by
    have hl := hi.left
    have hg := hi.gone
    have hf := hi.feed
    intro code hc
    cases h with
    | fetch _ =>
      obtain ⟨s, out, h1, h2⟩ := hl code hc
      exact ⟨s, out, by simpa [List.append_assoc] using h1, h2⟩
    | finish => exact hl code hc
    | break_ => exact hl code hc
    | feed _ _ => cases hc
    | gone _ => exact hl code hc
    | shut => exact hl code hc
    | ends => exact hl code hc
    | read _ _ => cases hc
    | readEnd _ _ => cases hc
    | write _ => cases hc
    | push _ _ => cases hc
    | @exit src hold c pin s code' pout hn =>
      cases hc
      rcases hf.child with hB | hA
      · obtain ⟨_, _, h⟩ := hg hB
        cases h
      · exact ⟨s, _, hA, hn⟩
  read := fun hr => C59.ended h (hi.read hr)
  over := by
    intro code hc
    obtain ⟨h1, h2⟩ := hi.over code hc
    exact ⟨(C59.exited h h1).1, (C59.exited h h1).2.trans h2⟩
  broken := fun hr => C59.ended h (hi.broken hr)

theorem inv_step {h h' : Half σ} (hi : Inv p x h) (hs : Half.Step p cap h h') : Inv p x h' := by
  cases hs with
  | feed hf hb => exact inv_feed hi hf hb
  | fed =>
    exact ⟨hi.feed, hi.gone, hi.left, fun _ => rfl, fun _ h => (by cases h), fun h => (by cases h)⟩
  | unfed =>
    exact ⟨hi.feed, hi.gone, hi.left, fun h => (by rcases h with h | ⟨_, h⟩ <;> cases h), fun _ h => (by cases h),
      fun _ => rfl⟩
  | take ne =>
    exact ⟨hi.feed.take, hi.gone, hi.left, fun _ => hi.read (.inl rfl), fun _ h => (by cases h),
      fun h => (by cases h)⟩
  | eof =>
    refine ⟨hi.feed, hi.gone, hi.left, fun _ => hi.read (.inl rfl), fun _ h => ?_, fun h => by cases h⟩
    cases h
    exact ⟨rfl, rfl⟩

/-- What `init` was given by a program that exited is what it made of all its input. -/
theorem ran {h : Half σ} (hi : Inv p x h) {code : Nat} (ho : h.state = .over code) : p.Ran x h.got code := by
  obtain ⟨h1, h2⟩ := hi.over code ho
  have hc := hi.feed.child
  rw [h1, h2, hi.read (.inr ⟨code, ho⟩)] at hc
  rcases hc with hc | hc
  · cases hc
  · simpa using hc

/-- A program that reads all its input is never gone too early. -/
theorem not_broken {h : Half σ} (hi : Inv p x h) (ha : ReadsAll p x) : h.state ≠ .broken := by
  intro hb
  have hB : h.feed.copier.Broken := by rw [hi.broken hb]; rfl
  obtain ⟨hne, code, hc⟩ := hi.gone hB
  obtain ⟨s, out, h1, h2⟩ := hi.left code hc
  have := ha _ _ _ _ h1 h2
  simp at this
  exact hne this.2.1

/-- With a program `init` is never stuck if what it writes fits in a pipe, or what the program writes does. -/
theorem half_lively (hcap : cap ≠ 0) {h : Half σ} (hi : Inv p x h) (hfit : x.length ≤ cap ∨ Terse p x cap)
    (hs : h.state = .feeding ∨ h.state = .reading) : ∃ h', Half.Step p cap h h' := by
  obtain ⟨f, got, state⟩ := h
  dsimp only at hs
  rcases hs with rfl | rfl
  · obtain ⟨src, hold, c, pin, child, pout⟩ := f
    cases c with
    | ended ok => cases ok with
      | true => exact ⟨_, .fed⟩
      | false => exact ⟨_, .unfed⟩
    | closed ok => exact ⟨_, .feed .ends (by simp)⟩
    | closing ok => exact ⟨_, .feed .shut (by simp)⟩
    | copying =>
      cases hold with
      | nil =>
        cases src with
        | nil => exact ⟨_, .feed .finish (by simp)⟩
        | cons y ys => exact ⟨_, .feed (.fetch (a := [y]) (b := ys) (by simp)) (by simp)⟩
      | cons y ys =>
        cases child with
        | exited code => exact ⟨_, .feed (.gone (by simp)) (by simp)⟩
        | running pend s =>
          by_cases hroom : pin.length + 1 ≤ cap
          · exact ⟨_, .feed (.feed (a := [y]) (b := ys) (by simp) (by simpa using hroom)) (by simp)⟩
          · have hA : p.At x (pin ++ (y :: ys) ++ src) (got ++ pout ++ pend) s := by
              rcases hi.feed.child with hB | hA
              · exact hB.elim
              · exact hA
            have hlen := at_suffix hA
            simp only [List.length_append, List.length_cons] at hlen
            cases pend with
            | nil =>
              cases pin with
              | nil => simp at hroom; omega
              | cons z zs =>
                cases hn : p.next s with
                | read k => exact ⟨_, .feed (.read (a := [z]) (b := zs) hn (by simp)) (by simp)⟩
                | write b s' => exact ⟨_, .feed (.write hn) (by simp)⟩
                | exit code => exact ⟨_, .feed (.exit hn) (by simp)⟩
            | cons z zs =>
              by_cases hroom' : pout.length + 1 ≤ cap
              · exact ⟨_, .feed (.push (a := [z]) (b := zs) (by simp) (by simpa using hroom')) (by simp)⟩
              · exfalso
                rcases hfit with hfit | hfit
                · omega
                · have := hfit _ _ _ hA
                  simp only [List.length_append, List.length_cons] at this
                  omega
  · have hc := hi.read (.inl rfl)
    dsimp only at hc
    rcases Feed.lively (p := p) hcap f with h | ⟨code, h⟩ | ⟨f', h⟩
    · obtain ⟨src, hold, c, pin, child, pout⟩ := f
      cases pout with
      | nil => exact absurd rfl h
      | cons y ys => exact ⟨_, .take (a := [y]) (b := ys) (by simp)⟩
    · obtain ⟨src, hold, c, pin, child, pout⟩ := f
      dsimp only at h
      subst h
      cases pout with
      | nil => exact ⟨_, .eof⟩
      | cons y ys => exact ⟨_, .take (a := [y]) (b := ys) (by simp)⟩
    · refine ⟨_, .feed h ?_⟩
      rw [C59.ended h hc]
      simp

/-- How far `init` is from being done with a program. -/
def togo : Trying → Nat
  | .feeding => 2
  | .reading => 1
  | _ => 0

/-- One measure, lexicographic. -/
def measure (rank : σ → Nat) (h : Half σ) : (Nat ×ₗ Nat ×ₗ Nat) ×ₗ Nat := toLex (h.feed.measure rank, togo h.state)

theorem half_less {rank : σ → Nat} (h1 : ∀ s k, p.next s = .read k → rank (k []) < rank s)
    (h2 : ∀ s b s', p.next s = .write b s' → rank s' < rank s) {h h' : Half σ} (hs : Half.Step p cap h h') :
    measure rank h' < measure rank h := by
  show toLex _ < toLex _
  rw [Prod.Lex.toLex_lt_toLex]
  cases hs with
  | feed hf _ => exact .inl (hf.less h1 h2)
  | take ne => exact .inl (Feed.take_less ne)
  | fed => exact .inr ⟨rfl, by simp [togo]⟩
  | unfed => exact .inr ⟨rfl, by simp [togo]⟩
  | eof => exact .inr ⟨rfl, by simp [togo]⟩

end

/-! ## The trial -/

/-- What is true all the time. -/
def Ok (p : Prog σ) (q : Prog τ) (plain : Bytes) : State σ τ → Prop
  | .filtering h => Inv p plain h
  | .unfiltering y h => p.Ran plain y 0 ∧ Inv q y h
  | .accepted => ∃ y, p.Ran plain y 0 ∧ q.Ran y plain 0
  | .refused => (¬ ReadsAll p plain ∨ ∃ y code, p.Ran plain y code ∧ code ≠ 0) ∨
      ∃ y, p.Ran plain y 0 ∧ (¬ ReadsAll q y ∨ ∃ z code, q.Ran y z code ∧ (code ≠ 0 ∨ z ≠ plain))

theorem ok {s : State σ τ} (h : Reachable p q cap plain s) : Ok p q plain s := by
  induction h with
  | refl => exact inv_init
  | tail _ hs ih =>
    cases hs with
    | filter h => exact inv_step ih h
    | filtered => exact ⟨ran ih rfl, inv_init⟩
    | filterFailed hc => exact .inl (.inr ⟨_, _, ran ih rfl, hc⟩)
    | filterBroken => exact .inl (.inl (fun ha => not_broken ih ha rfl))
    | unfilter h => exact ⟨ih.1, inv_step ih.2 h⟩
    | same => exact ⟨_, ih.1, ran ih.2 rfl⟩
    | differs hne => exact .inr ⟨_, ih.1, .inr ⟨_, _, ran ih.2 rfl, .inr hne⟩⟩
    | unfilterFailed hc => exact .inr ⟨_, ih.1, .inr ⟨_, _, ran ih.2 rfl, .inl hc⟩⟩
    | unfilterBroken => exact .inr ⟨_, ih.1, .inl (fun ha => not_broken ih.2 ha rfl)⟩

/-- Filters that `init` accepts made something of the text from which the other program made the text again. -/
theorem accepted (h : Reachable p q cap plain .accepted) : ∃ y, p.Ran plain y 0 ∧ q.Ran y plain 0 := ok h

theorem accepted_computes {f u : Bytes → Option Bytes} (hf : p.Computes f) (hu : q.Computes u)
    (h : Reachable p q cap plain .accepted) : (f plain).bind u = some plain := by
  obtain ⟨y, h1, h2⟩ := accepted h
  rw [(hf _ _ _ h1).1 rfl]
  exact (hu _ _ _ h2).1 rfl

/-- Programs that read all they are given, and the second of which undoes on the text what the first does, are never
refused. -/
theorem good_never_refused {f u : Bytes → Option Bytes} (hf : p.Computes f) (hu : q.Computes u) {y : Bytes}
    (hfy : f plain = some y) (huy : u y = some plain) (hp : ReadsAll p plain) (hq : ReadsAll q y) :
    ¬ Reachable p q cap plain .refused := by
  intro h
  rcases ok h with (h | ⟨z, code, h1, h2⟩) | ⟨z, h0, h1⟩
  · exact h hp
  · have := (hf _ _ _ h1).2 h2
    rw [hfy] at this
    cases this
  · have hz : z = y := by
      have := (hf _ _ _ h0).1 rfl
      rw [hfy] at this
      exact (Option.some.inj this).symm
    subst hz
    rcases h1 with h1 | ⟨v, code, h1, h2⟩
    · exact h1 hq
    · by_cases hc : code = 0
      · rcases h2 with h2 | h2
        · exact h2 hc
        · have := (hu _ _ _ h1).1 hc
          rw [huy] at this
          exact h2 (Option.some.inj this).symm
      · have := (hu _ _ _ h1).2 hc
        rw [huy] at this
        cases this

/-- The trial is never stuck if the text fits in a pipe, and what the second program is given or writes does. -/
theorem not_stuck_partial (hcap : cap ≠ 0) (hplain : plain.length ≤ cap)
    (hq : ∀ y, p.Ran plain y 0 → y.length ≤ cap ∨ Terse q y cap) {s : State σ τ} (hR : Reachable p q cap plain s)
    (ha : s ≠ .accepted) (hr : s ≠ .refused) : ∃ s', Step p q cap plain s s' := by
  have hi := ok hR
  clear hR
  cases s with
  | accepted => exact absurd rfl ha
  | refused => exact absurd rfl hr
  | filtering h =>
    cases hs : h.state with
    | feeding =>
      obtain ⟨h', hh⟩ := half_lively hcap hi (.inl hplain) (.inl hs)
      exact ⟨_, .filter hh⟩
    | reading =>
      obtain ⟨h', hh⟩ := half_lively hcap hi (.inl hplain) (.inr hs)
      exact ⟨_, .filter hh⟩
    | over code =>
      obtain ⟨f, got, state⟩ := h
      dsimp only at hs
      subst hs
      by_cases hc : code = 0
      · subst hc; exact ⟨_, .filtered⟩
      · exact ⟨_, .filterFailed hc⟩
    | broken =>
      obtain ⟨f, got, state⟩ := h
      dsimp only at hs
      subst hs
      exact ⟨_, .filterBroken⟩
  | unfiltering y h =>
    have hfit := hq y hi.1
    cases hs : h.state with
    | feeding =>
      obtain ⟨h', hh⟩ := half_lively hcap hi.2 hfit (.inl hs)
      exact ⟨_, .unfilter hh⟩
    | reading =>
      obtain ⟨h', hh⟩ := half_lively hcap hi.2 hfit (.inr hs)
      exact ⟨_, .unfilter hh⟩
    | over code =>
      obtain ⟨f, got, state⟩ := h
      dsimp only at hs
      subst hs
      by_cases hc : code = 0
      · subst hc
        by_cases hg : got = plain
        · subst hg; exact ⟨_, .same⟩
        · exact ⟨_, .differs hg⟩
      · exact ⟨_, .unfilterFailed hc⟩
    | broken =>
      obtain ⟨f, got, state⟩ := h
      dsimp only at hs
      subst hs
      exact ⟨_, .unfilterBroken⟩

/-- No trial goes on for ever, if the programs do not by themselves. -/
theorem ends (hp : p.Settles) (hq : q.Settles) :
    WellFounded (fun s' s : State σ τ => Step p q cap plain s s') := by
  obtain ⟨r1, a1, a2⟩ := hp
  obtain ⟨r2, b1, b2⟩ := hq
  let m : State σ τ → Nat ×ₗ ((Nat ×ₗ Nat ×ₗ Nat) ×ₗ Nat) := fun
    | .filtering h => toLex (2, measure r1 h)
    | .unfiltering _ h => toLex (1, measure r2 h)
    | .accepted | .refused => toLex (0, toLex (toLex (0, toLex (0, 0)), 0))
  refine Subrelation.wf (r := InvImage (· < ·) m) ?_ (InvImage.wf m wellFounded_lt)
  intro s' s h
  cases h with
  | filter hh => exact Prod.Lex.toLex_lt_toLex.2 (.inr ⟨rfl, half_less a1 a2 hh⟩)
  | unfilter hh => exact Prod.Lex.toLex_lt_toLex.2 (.inr ⟨rfl, half_less b1 b2 hh⟩)
  | _ => exact Prod.Lex.toLex_lt_toLex.2 (.inl (by simp))

/-- The two together: such programs are accepted, whatever the order of things, if what is made of the text fits in a
pipe or the second program writes no more than does. -/
theorem good_accepted {f u : Bytes → Option Bytes} (hf : p.Computes f) (hu : q.Computes u) {y : Bytes}
    (hfy : f plain = some y) (huy : u y = some plain) (hp : ReadsAll p plain) (hq : ReadsAll q y) (sp : p.Settles)
    (sq : q.Settles) (hcap : cap ≠ 0) (hplain : plain.length ≤ cap) (hfit : y.length ≤ cap ∨ Terse q y cap)
    {s : State σ τ} (h : Reachable p q cap plain s) :
    Relation.ReflTransGen (Step p q cap plain) s .accepted := by
  induction s using (ends (cap := cap) (plain := plain) sp sq).induction with
  | h s ih =>
    by_cases ha : s = .accepted
    · rw [ha]
    · have hr : s ≠ .refused := fun e => good_never_refused hf hu hfy huy hp hq (e ▸ h)
      obtain ⟨s', hs⟩ := not_stuck_partial hcap hplain (fun z hz => by
        have := (hf _ _ _ hz).1 rfl
        rw [hfy] at this
        cases this
        exact hfit) h ha hr
      exact .head hs (ih s' hs (.tail h hs))

/-! ## Programs that do not undo one another -/

open C60 (z z_add z_ne z_len cat cat_read)

inductive NoiseState
  | want
  | over
  | done
deriving DecidableEq, Repr

/-- Reads all its input and then writes some zeros, whatever it has read. -/
def noise (n : Nat) : Prog NoiseState where
  start := .want
  next
    | .want => .read (fun b => if b = [] then .over else .want)
    | .over => .write (z n) .done
    | .done => .exit 0

theorem noise_settles (n : Nat) : (noise n).Settles := by
  refine ⟨fun | .want => 2 | .over => 1 | .done => 0, ?_, ?_⟩
  · intro s k hn
    cases s with
    | want => simp only [noise] at hn; cases hn; simp
    | over => cases hn
    | done => cases hn
  · intro s b s' hn
    cases s with
    | want => cases hn
    | over => simp only [noise] at hn; cases hn; simp
    | done => cases hn

/-- `init` waits for room in the pipe to the second program, which waits for room in the pipe from it. -/
def stuckAt (cap : Nat) : Half Prog.EachState :=
  ⟨⟨[], z 1, .copying, z cap, .running (z cap) .want, z cap⟩, [], .feeding⟩

theorem stuck (cap : Nat) (h : cap ≠ 0) (y plain : Bytes) (p : Prog σ) :
    ¬ ∃ s', Step p cat cap plain (.unfiltering y (stuckAt cap)) s' := by
  rintro ⟨s', hs⟩
  have hz : z cap ≠ [] := z_ne h
  generalize hq : (State.unfiltering y (stuckAt cap) : State σ _) = s at hs
  cases hs with
  | filter _ => cases hq
  | filtered => cases hq
  | filterFailed _ => cases hq
  | filterBroken => cases hq
  | same => injection hq with _ hq; injection hq with _ _ h3; cases h3
  | differs _ => injection hq with _ hq; injection hq with _ _ h3; cases h3
  | unfilterFailed _ => injection hq with _ hq; injection hq with _ _ h3; cases h3
  | unfilterBroken => injection hq with _ hq; injection hq with _ _ h3; cases h3
  | unfilter hh =>
    injection hq with _ hq
    unfold stuckAt at hq
    cases hh with
    | fed => injection hq with h1 _ _; injection h1 with _ _ h3; cases h3
    | unfed => injection hq with h1 _ _; injection h1 with _ _ h3; cases h3
    | take _ => injection hq with _ _ h3; cases h3
    | eof => injection hq with _ _ h3; cases h3
    | feed hf _ =>
      injection hq with hq _ _
      cases hf with
      | fetch _ => injection hq with _ h2 _ _ _ _; cases h2
      | finish => injection hq with _ h2 _ _ _ _; cases h2
      | break_ => injection hq with _ h2 _ _ _ _; cases h2
      | @feed src a b pin pend s pout ne room =>
        injection hq with _ _ _ h4 _ _
        rw [← h4, z_len] at room
        have := List.length_pos_iff.mpr ne
        omega
      | gone _ => injection hq with _ _ _ _ h5 _; cases h5
      | shut => injection hq with _ _ h3 _ _ _; cases h3
      | ends => injection hq with _ _ h3 _ _ _; cases h3
      | read _ _ => injection hq with _ _ _ _ h5 _; injection h5 with h5 _; exact hz h5
      | readEnd _ _ => injection hq with _ _ _ _ h5 _; injection h5 with h5 _; exact hz h5
      | write _ => injection hq with _ _ _ _ h5 _; injection h5 with h5 _; exact hz h5
      | @push src hold c pin a b s pout ne room =>
        injection hq with _ _ _ _ _ h6
        rw [← h6, z_len] at room
        have := List.length_pos_iff.mpr ne
        omega
      | exit _ => injection hq with _ _ _ _ h5 _; injection h5 with h5 _; exact hz h5

/-- The first program is given the text and writes its zeros, and `init` reads them. -/
theorem noise_run (cap n : Nat) (hcap : cap ≠ 0) {plain : Bytes} (hne : plain ≠ []) (hfit : plain.length ≤ cap) :
    Relation.ReflTransGen (Half.Step (noise (n * cap + 1)) cap) (.init (noise (n * cap + 1)) plain)
      ⟨⟨[], [], .ended true, [], .exited 0, []⟩, z (n * cap + 1), .over 0⟩ := by
  unfold Half.init Feed.init
  have f1 : Feed.Step (noise (n * cap + 1)) cap ⟨plain, [], .copying, [], .running [] .want, []⟩
      ⟨[], plain, .copying, [], .running [] .want, []⟩ := by
    simpa using Feed.Step.fetch (p := noise (n * cap + 1)) (cap := cap) (a := plain) (b := []) (pin := [])
      (child := .running [] .want) (pout := []) hne
  have f2 : Feed.Step (noise (n * cap + 1)) cap ⟨[], plain, .copying, [], .running [] .want, []⟩
      ⟨[], [], .copying, plain, .running [] .want, []⟩ := by
    simpa using Feed.Step.feed (p := noise (n * cap + 1)) (cap := cap) (src := []) (a := plain) (b := []) (pin := [])
      (pend := []) (s := .want) (pout := []) hne (by simpa using hfit)
  have f3 : Feed.Step (noise (n * cap + 1)) cap ⟨[], [], .ended true, plain, .running [] .want, []⟩
      ⟨[], [], .ended true, [], .running [] .want, []⟩ := by
    have := Feed.Step.read (p := noise (n * cap + 1)) (cap := cap) (src := []) (hold := []) (c := .ended true) (a := plain)
      (b := []) (s := .want) (pout := []) rfl hne
    simpa [hne] using this
  have f4 : Feed.Step (noise (n * cap + 1)) cap ⟨[], [], .ended true, [], .running [] .want, []⟩
      ⟨[], [], .ended true, [], .running [] .over, []⟩ :=
    Feed.Step.readEnd (p := noise (n * cap + 1)) (c := .ended true) (s := .want) rfl trivial
  refine .head (.feed f1 (by simp)) (.head (.feed f2 (by simp)) (.head (.feed .finish (by simp))
    (.head (.feed .shut (by simp)) (.head (.feed .ends (by simp)) (.head .fed (.head (.feed f3 (by simp))
    (.head (.feed f4 (by simp)) (.head (.feed (.write (b := z (n * cap + 1)) (s' := .done) rfl) (by simp)) ?_))))))))
  have hall : ∀ m got, Relation.ReflTransGen (Half.Step (noise (n * cap + 1)) cap)
      ⟨⟨[], [], .ended true, [], .running (z (m * cap + 1)) .done, []⟩, got, .reading⟩
      ⟨⟨[], [], .ended true, [], .running [] .done, []⟩, got ++ z (m * cap + 1), .reading⟩ := by
    have hone : ∀ k rest got, k ≠ 0 → k ≤ cap → Relation.ReflTransGen (Half.Step (noise (n * cap + 1)) cap)
        ⟨⟨[], [], .ended true, [], .running (z k ++ rest) .done, []⟩, got, .reading⟩
        ⟨⟨[], [], .ended true, [], .running rest .done, []⟩, got ++ z k, .reading⟩ := by
      intro k rest got hk hle
      have g1 := Half.Step.feed (p := noise (n * cap + 1)) (cap := cap) (got := got) (state := .reading)
        (Feed.Step.push (p := noise (n * cap + 1)) (cap := cap) (src := []) (hold := []) (c := .ended true) (pin := [])
        (a := z k) (b := rest) (s := .done) (pout := []) (z_ne hk) (by simpa [z_len] using hle)) (by simp)
      have g2 := Half.Step.take (p := noise (n * cap + 1)) (cap := cap) (src := []) (hold := []) (c := .ended true)
        (pin := []) (child := .running rest .done) (a := z k) (b := []) (got := got) (z_ne hk)
      simp only [List.nil_append] at g1
      simp only [List.append_nil] at g2
      exact .head g1 (.single g2)
    intro m
    induction m with
    | zero =>
      intro got
      have := hone 1 [] got (by omega) (by omega)
      simpa using this
    | succ m ih =>
      intro got
      have e : z ((m + 1) * cap + 1) = z cap ++ z (m * cap + 1) := by
        rw [← z_add]
        congr 1
        rw [Nat.add_mul]
        omega
      rw [e]
      have h2 := ih (got ++ z cap)
      rw [List.append_assoc] at h2
      exact (hone cap _ got hcap le_rfl).trans h2
  refine (hall n []).trans ?_
  exact .head (.feed (.exit rfl) (by simp)) (.single .eof)

/-- The second program, `cat`, is given the zeros until neither can go on. -/
theorem cat_run (cap : Nat) (h : cap ≠ 0) : Relation.ReflTransGen (Half.Step cat cap) (.init cat (z (3 * cap + 1)))
    (stuckAt cap) := by
  unfold Half.init Feed.init stuckAt
  have e3 : z (3 * cap + 1) = z cap ++ z (2 * cap + 1) := by rw [← z_add]; congr 1; omega
  have e2 : z (2 * cap + 1) = z cap ++ z (cap + 1) := by rw [← z_add]; congr 1; omega
  have e1 : z (cap + 1) = z cap ++ z 1 := z_add _ _
  have f1 : Feed.Step cat cap ⟨z (3 * cap + 1), [], .copying, [], .running [] .want, []⟩
      ⟨[], z (3 * cap + 1), .copying, [], .running [] .want, []⟩ := by
    simpa using Feed.Step.fetch (p := cat) (cap := cap) (a := z (3 * cap + 1)) (b := []) (pin := [])
      (child := .running [] .want) (pout := []) (z_ne (by omega))
  have feed : ∀ rest pend pout, Feed.Step cat cap ⟨[], z cap ++ rest, .copying, [], .running pend .want, pout⟩
      ⟨[], rest, .copying, z cap, .running pend .want, pout⟩ := by
    intro rest pend pout
    simpa using Feed.Step.feed (p := cat) (cap := cap) (src := []) (a := z cap) (b := rest) (pin := []) (pend := pend)
      (s := .want) (pout := pout) (z_ne h) (by simp [z_len])
  have read : ∀ hold pout, Feed.Step cat cap ⟨[], hold, .copying, z cap, .running [] .want, pout⟩
      ⟨[], hold, .copying, [], .running [] (.have_ (z cap)), pout⟩ := by
    intro hold pout
    simpa using cat_read cap h (src := []) (hold := hold) (c := .copying) (pin := []) (pout := pout) (cap := cap)
  have write : ∀ hold pout, Feed.Step cat cap ⟨[], hold, .copying, [], .running [] (.have_ (z cap)), pout⟩
      ⟨[], hold, .copying, [], .running (z cap) .want, pout⟩ := fun _ _ => .write rfl
  have push : ∀ hold, Feed.Step cat cap ⟨[], hold, .copying, [], .running (z cap) .want, []⟩
      ⟨[], hold, .copying, [], .running [] .want, z cap⟩ := by
    intro hold
    simpa using Feed.Step.push (p := cat) (cap := cap) (src := []) (hold := hold) (c := .copying) (pin := []) (a := z cap)
      (b := []) (s := .want) (pout := []) (z_ne h) (by simp [z_len])
  refine .head (.feed f1 (by simp)) ?_
  rw [e3]
  refine .head (.feed (feed _ _ _) (by simp)) (.head (.feed (read _ _) (by simp)) (.head (.feed (write _ _) (by simp))
    (.head (.feed (push _) (by simp)) ?_)))
  rw [e2]
  refine .head (.feed (feed _ _ _) (by simp)) (.head (.feed (read _ _) (by simp)) (.head (.feed (write _ _) (by simp)) ?_))
  rw [e1]
  exact .single (.feed (feed _ _ _) (by simp))

theorem plaintext_length : plaintext.length = 124 := by decide +kernel

/-- The claim is false: given a first program that makes enough of the text, and a second that writes while it reads,
which do not undo one another, `init` may wait for ever and not say so, whatever the size of the pipes. -/
theorem wrong_pair_hangs (cap : Nat) (hcap : plaintext.length ≤ cap) : ∃ (p : Prog NoiseState) (s : State NoiseState _),
    p.Settles ∧ cat.Settles ∧ Reachable p cat cap plaintext s ∧ s ≠ .accepted ∧ s ≠ .refused ∧
    ¬ ∃ s', Step p cat cap plaintext s s' := by
  have h0 : cap ≠ 0 := by
    intro h
    rw [h, plaintext_length] at hcap
    omega
  have hne : plaintext ≠ [] := by
    intro h
    have := plaintext_length
    rw [h] at this
    cases this
  refine ⟨noise (3 * cap + 1), .unfiltering (z (3 * cap + 1)) (stuckAt cap), noise_settles _, Prog.each_settles _, ?_,
    by simp, by simp, stuck cap h0 _ _ _⟩
  have r1 : Reachable (noise (3 * cap + 1)) cat cap plaintext
      (.filtering ⟨⟨[], [], .ended true, [], .exited 0, []⟩, z (3 * cap + 1), .over 0⟩) :=
    Relation.ReflTransGen.lift State.filtering (fun _ _ h => Step.filter h)
      _ _ (noise_run cap 3 h0 hne hcap)
  have r2 : Relation.ReflTransGen (Step (noise (3 * cap + 1)) cat cap plaintext)
      (.unfiltering (z (3 * cap + 1)) (.init cat (z (3 * cap + 1)))) (.unfiltering (z (3 * cap + 1)) (stuckAt cap)) :=
    Relation.ReflTransGen.lift (State.unfiltering (z (3 * cap + 1))) (fun _ _ h => Step.unfilter h) _ _
      (cat_run cap h0)
  exact (r1.tail .filtered).trans r2

/-! ## Example -/

theorem each_reads_all (g : UInt8 → UInt8) (x : Bytes) : ReadsAll (Prog.each g) x := by
  have key : ∀ rest out s, (Prog.each g).At x rest out s → s = .over → rest = [] := by
    intro rest out s h
    induction h with
    | start => intro e; cases e
    | @read a b out s k h hn ne ih =>
      intro e
      cases s with
      | want =>
        simp only [Prog.each] at hn
        cases hn
        simp [ne] at e
      | have_ b => cases hn
      | over => cases hn
    | readEnd _ _ _ => intro _; rfl
    | @write rest out s b s' h hn ih =>
      intro e
      cases s with
      | want => cases hn
      | have_ c => simp only [Prog.each] at hn; cases hn; cases e
      | over => cases hn
  intro rest out s code h hn
  refine key rest out s h ?_
  cases s with
  | want => cases hn
  | have_ b => cases hn
  | over => rfl

/-- Programs that add one to every byte and take it away again. -/
example (s : State _ _)
    (h : Reachable (Prog.each (· + 1)) (Prog.each (· - 1)) 65536 plaintext s) :
    Relation.ReflTransGen (Step (Prog.each (· + 1)) (Prog.each (· - 1)) 65536 plaintext) s .accepted :=
  good_accepted (Prog.each_computes _) (Prog.each_computes _) (y := plaintext.map (· + 1)) rfl
    (by simp [List.map_map, Function.comp_def]) (each_reads_all _ _) (each_reads_all _ _) (Prog.each_settles _) (Prog.each_settles _) (by decide)
    (by rw [plaintext_length]; decide) (.inl (by rw [List.length_map, plaintext_length]; decide)) h

end Backpak.C73
