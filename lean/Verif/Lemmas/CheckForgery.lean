import Verif.Lemmas.Genuine
import Verif.Lemmas.Check
import Verif.Spec.Demo

/-!
# Checking that a source serves no forgery, for examples with the toy hash
-/

namespace Backpak.Demo

open Spec

def hashStep (a : Nat) (b : UInt8) : Nat := (a * 1000003 + b.toNat + 1) % 2 ^ 224

/-- The number of which `hash` gives the digits. -/
def hashVal (x : Bytes) : Nat := x.foldl hashStep 0

theorem hashVal_snoc (x : Bytes) (b : UInt8) : hashVal (x ++ [b]) = hashStep (hashVal x) b := by
  unfold hashVal
  rw [List.foldl_append, List.foldl_cons, List.foldl_nil]

theorem digits_same (v w : Nat) (k : Nat) (h : ∀ i < k, UInt8.ofNat (v / 256 ^ i) = UInt8.ofNat (w / 256 ^ i)) :
    v % 256 ^ k = w % 256 ^ k := by
  induction k with
  | zero => simp [Nat.mod_one]
  | succ k ih =>
    rw [Nat.mod_pow_succ, Nat.mod_pow_succ, ih fun i hi => h i (by omega)]
    have := congrArg UInt8.toNat (h k (by omega))
    simp only [UInt8.toNat_ofNat'] at this
    rw [this]

theorem hashVal_lt (x : Bytes) : hashVal x < 2 ^ 224 := by
  have : ∀ (x : Bytes) (a : Nat), a < 2 ^ 224 → x.foldl hashStep a < 2 ^ 224 := by
    intro x
    induction x with
    | nil => exact fun a h => h
    | cons b x ih => exact fun a _ => ih _ (Nat.mod_lt _ (Nat.two_pow_pos 224))
  exact this x 0 (Nat.two_pow_pos 224)

theorem hashVal_same {x y : Bytes} (h : hash x = hash y) : hashVal x = hashVal y := by
  have h1 := congrArg ObjectId.digest h
  have h1 : (List.range 28).map (fun i => UInt8.ofNat (hashVal x / 256 ^ i)) =
      (List.range 28).map (fun i => UInt8.ofNat (hashVal y / 256 ^ i)) := h1
  have h2 : ∀ i < 28, UInt8.ofNat (hashVal x / 256 ^ i) = UInt8.ofNat (hashVal y / 256 ^ i) := by
    intro i hi
    have := congrArg (fun l => l[i]?) h1
    simpa [hi] using this
  have h3 := digits_same _ _ 28 h2
  have e : (256 : Nat) ^ 28 = 2 ^ 224 := by rw [show (256 : Nat) = 2 ^ 8 from rfl, ← Nat.pow_mul]
  rwa [e, Nat.mod_eq_of_lt (hashVal_lt x), Nat.mod_eq_of_lt (hashVal_lt y)] at h3

/-- Of all starts of `full`, `rest` being what is left after `n` bytes: those with the hash of one of the
targets are that target. -/
def startsOk (targets : List (Nat × Bytes)) (full : Bytes) : Nat → Nat → Bytes → Bool
  | acc, n, rest => targets.all (fun t => acc != t.1 || full.take n == t.2) &&
    match rest with
    | [] => true
    | b :: r => startsOk targets full (hashStep acc b) (n + 1) r

theorem startsOk_sound {targets : List (Nat × Bytes)} {full : Bytes} : ∀ {rest done : Bytes},
    full = done ++ rest → startsOk targets full (hashVal done) done.length rest = true →
    ∀ x r, full = done ++ x ++ r → ∀ t ∈ targets, hashVal (done ++ x) = t.1 → done ++ x = t.2 := by
  intro rest
  induction rest with
  | nil =>
    intro done hf h x r hx t ht hv
    have : x = [] := by
      rw [hf, List.append_nil, List.append_assoc] at hx
      have := congrArg List.length hx
      simp only [List.length_append] at this
      exact List.eq_nil_of_length_eq_zero (by omega)
    subst this
    rw [List.append_nil] at hv ⊢
    unfold startsOk at h
    simp only [Bool.and_true, List.all_eq_true] at h
    have := h t ht
    simp only [hv, bne_self_eq_false, Bool.false_or, beq_iff_eq] at this
    rw [hf, List.append_nil, List.take_length] at this
    exact this
  | cons b rest ih =>
    intro done hf h x r hx t ht hv
    unfold startsOk at h
    simp only [Bool.and_eq_true, List.all_eq_true] at h
    cases x with
    | nil =>
      rw [List.append_nil] at hv ⊢
      have := h.1 t ht
      simp only [hv, bne_self_eq_false, Bool.false_or, beq_iff_eq] at this
      rw [hf, List.take_left' rfl] at this
      exact this
    | cons c x =>
      have hb : c = b := by
        rw [hf] at hx
        simp only [List.append_assoc, List.cons_append, List.append_cancel_left_eq, List.cons.injEq] at hx
        exact hx.1.symm
      subst hb
      have := ih (done := done ++ [c]) (by rw [hf]; simp) (by
        have h2 := h.2
        rw [← hashVal_snoc] at h2
        simpa only [List.length_append, List.length_cons, List.length_nil, Nat.zero_add] using h2) x r (by rw [hx]; simp) t ht (by rw [← hv]; simp)
      simpa using this

/-- Whether no piece of `l` has the hash of a target without being it. -/
def piecesOk (targets : List (Nat × Bytes)) : Bytes → Bool
  | [] => startsOk targets [] 0 0 []
  | b :: l => startsOk targets (b :: l) 0 0 (b :: l) && piecesOk targets l

theorem piecesOk_sound {targets : List (Nat × Bytes)} {l : Bytes} (h : piecesOk targets l = true) {x : Bytes}
    (hx : x <:+: l) : ∀ t ∈ targets, hashVal x = t.1 → x = t.2 := by
  induction l with
  | nil =>
    have : x = [] := by simpa using hx
    subst this
    exact startsOk_sound (full := []) (rest := []) (done := []) rfl h [] [] rfl
  | cons b l ih =>
    simp only [piecesOk, Bool.and_eq_true] at h
    obtain ⟨p, q, hpq⟩ := hx
    cases p with
    | nil =>
      exact startsOk_sound (full := b :: l) (rest := b :: l) (done := []) rfl h.1 x q (by rw [← hpq])
    | cons c p =>
      simp only [List.cons_append, List.cons.injEq] at hpq
      exact ih h.2 ⟨p, q, hpq.2⟩

/-- The blobs of a repository, with their hashes. -/
def targetsOf (R : Repo ObjectId) : List (Nat × Bytes) := (Check.blobs R).map fun b => (hashVal b.data, b.data)

theorem noForgery {R : Repo ObjectId} {src : Source ObjectId}
    (h : ∀ p s, src.read p = .ok s → piecesOk (targetsOf R) s.data = true) : NoForgery codec R src := by
  rintro x b ⟨p, s, hs, hx⟩ hb hh
  have hb' := Check.has_iff.mp hb
  refine piecesOk_sound (h p s hs) hx (hashVal b.data, b.data) (List.mem_map.mpr ⟨b, hb'.2, rfl⟩) ?_
  refine hashVal_same ?_
  have e1 : hash x = b.id := hh
  have e2 : hash b.data = b.id := hb'.1
  rw [e1, e2]

end Backpak.Demo
