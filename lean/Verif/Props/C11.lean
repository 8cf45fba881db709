import Verif.Model.Chunk
import Mathlib.Logic.Relation

/-!
# C11 - Threaded chunking gives the same chunks as simple chunking
-/

namespace Backpak.C11

open Chunk

variable {Id : Type} (H : Bytes → Id) (cut : Bytes → Nat) (file : Bytes)

/-- States reachable in some schedule of the two threads and the consumer. -/
def Reachable (s : TState Id) : Prop := Relation.ReflTransGen (TStep H file) (tinit cut file) s

/-- Everything not yet received, in order. -/
def inFlight (s : TState Id) : List (Blob Id) :=
  s.blobQ ++ (s.hand.toList ++ (s.cutQ ++ s.toCut.getD []).map (toBlob H file))

/-- The invariant of the two threads. -/
structure Inv (s : TState Id) : Prop where
  all : s.got ++ inFlight H file s = chunkFile H cut file
  off : s.hashing = false → s.toCut = none ∧ s.cutQ = [] ∧ s.hand = none
  fin : s.done = true → s.hashing = false ∧ s.blobQ = []

theorem inv_step {s t : TState Id} (hs : Inv H cut file s) (h : TStep H file s t) :
    Inv H cut file t := by
  obtain ⟨h1, h2, h3⟩ := hs
  cases h with
  | sendCut hcap => exact ⟨by simpa [inFlight] using h1, by simp_all, by simp_all⟩
  | cutDone => exact ⟨by simpa [inFlight] using h1, by simp_all, by simp_all⟩
  | recvCut => exact ⟨by simpa [inFlight] using h1, by simp_all, by simp_all⟩
  | sendBlob hcap => exact ⟨by simpa [inFlight] using h1, by simp_all, by simp_all⟩
  | hashDone => exact ⟨by simpa [inFlight] using h1, by simp_all, by simp_all⟩
  | recvBlob => exact ⟨by simpa [inFlight] using h1, by simp_all, by simp_all⟩
  | finish => exact ⟨by simpa [inFlight] using h1, by simp_all, by simp_all⟩

theorem inv_reachable {s : TState Id} (h : Reachable H cut file s) : Inv H cut file s := by
  induction h with
  | refl => exact ⟨by simp [inFlight, tinit, chunkFile], by simp [tinit], by simp [tinit]⟩
  | tail _ hstep ih => exact inv_step H cut file ih hstep

/-- At every moment the consumer has received the first few of the chunks the simple path
would give. -/
theorem received_prefix {s : TState Id} (h : Reachable H cut file s) :
    s.got <+: chunkFile H cut file :=
  ⟨_, (inv_reachable H cut file h).all⟩

/-- When the iterator ends, in whatever schedule, the consumer has received exactly the chunks
the simple path gives, in the same order. -/
theorem finished_same {s : TState Id} (h : Reachable H cut file s) (hd : s.done = true) :
    s.got = chunkFile H cut file := by
  obtain ⟨h1, h2, h3⟩ := inv_reachable H cut file h
  obtain ⟨ho, hb⟩ := h3 hd
  obtain ⟨ha, hq, hh⟩ := h2 ho
  simpa [inFlight, ha, hb, hq, hh] using h1

/-- No deadlock: until the iterator ends, some thread can move. -/
theorem no_deadlock {s : TState Id} (h : Reachable H cut file s) (hd : s.done = false) :
    ∃ t, TStep H file s t := by
  obtain ⟨_, h2, _⟩ := inv_reachable H cut file h
  obtain ⟨toCut, cutQ, hand, hashing, blobQ, got, done⟩ := s
  simp only at hd h2
  subst hd
  cases blobQ with
  | cons b q => exact ⟨_, .recvBlob⟩
  | nil =>
    cases hashing with
    | false => exact ⟨_, .finish⟩
    | true =>
      cases hand with
      | some b => exact ⟨_, .sendBlob (by simp [capacity])⟩
      | none =>
        cases cutQ with
        | cons c q => exact ⟨_, .recvCut⟩
        | nil =>
          cases toCut with
          | none => exact ⟨_, .hashDone⟩
          | some l =>
            cases l with
            | nil => exact ⟨_, .cutDone⟩
            | cons c l => exact ⟨_, .sendCut (by simp [capacity])⟩

/-- Work left. -/
def work (s : TState Id) : Nat :=
  4 * (s.toCut.getD []).length + 3 * s.cutQ.length + 2 * s.hand.toList.length + s.blobQ.length
    + (if s.toCut.isSome then 1 else 0) + (if s.hashing then 1 else 0) + (if s.done then 0 else 1)

/-- Every step does some work, so every schedule ends. -/
theorem step_decreases {s t : TState Id} (h : TStep H file s t) : work t < work s := by
  cases h <;> simp [work] <;> omega

/-- From every reachable state every way of continuing ends with the consumer holding exactly
the chunks of the simple path. -/
theorem always_finishes {s : TState Id} (h : Reachable H cut file s) :
    (∃ t, Relation.ReflTransGen (TStep H file) s t ∧ t.done = true ∧ t.got = chunkFile H cut file) ∧
    Acc (fun a b => TStep H file b a) s := by
  constructor
  · induction hw : work s using Nat.strong_induction_on generalizing s with
    | _ n ih =>
      cases hd : s.done with
      | true => exact ⟨s, .refl, hd, finished_same H cut file h hd⟩
      | false =>
        obtain ⟨t, ht⟩ := no_deadlock H cut file h hd
        obtain ⟨u, h1, h2⟩ := ih (work t) (hw ▸ step_decreases H file ht) (h.tail ht) rfl
        exact ⟨u, .head ht h1, h2⟩
  · clear h
    induction hw : work s using Nat.strong_induction_on generalizing s with
    | _ n ih =>
      constructor
      intro t ht
      exact ih (work t) (hw ▸ step_decreases H file ht) rfl

/-- A reachable intermediate state: one chunk received while another is being hashed. -/
example : ∃ s : TState Nat, Reachable List.length (fun _ => 1) [7, 8] s ∧ s.got.length = 1 ∧
    s.hand.isSome ∧ s.done = false := by
  refine ⟨⟨some [], [], some ⟨[8], 1, .chunk⟩, true, [], [⟨[7], 1, .chunk⟩], false⟩, ?_, rfl, rfl, rfl⟩
  have h0 : tinit (Id := Nat) (fun _ => 1) [7, 8] =
      ⟨some [⟨0, 1⟩, ⟨1, 1⟩], [], none, true, [], [], false⟩ := by
    simp [tinit, cuts]
  unfold Reachable
  rw [h0]
  refine .head (.sendCut (by decide)) ?_
  refine .head .recvCut ?_
  refine .head (.sendBlob (by decide)) ?_
  refine .head .recvBlob ?_
  refine .head (.sendCut (by decide)) ?_
  exact .head .recvCut .refl

end Backpak.C11
