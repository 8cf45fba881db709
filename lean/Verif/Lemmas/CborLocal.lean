import Verif.Model.Serde

/-! The CBOR reader consumes a definite prefix and looks at nothing after it. -/

namespace Backpak

/-- A reader is local: what it consumes determines its result. -/
def Local {α : Type} (f : Bytes → Option (α × Bytes)) : Prop :=
  ∀ bs a rest, f bs = some (a, rest) →
    ∃ c, c ≠ [] ∧ bs = c ++ rest ∧ ∀ r, f (c ++ r) = some (a, r)

namespace Cbor

theorem rdBytes_local {n : Nat} {bs a rest : Bytes} (h : rdBytes n bs = some (a, rest)) :
    bs = a ++ rest ∧ a.length = n ∧ ∀ r, rdBytes n (a ++ r) = some (a, r) := by
  unfold rdBytes at h
  split at h
  · rename_i hn
    simp only [Option.some.injEq, Prod.mk.injEq] at h
    obtain ⟨rfl, rfl⟩ := h
    have hl : (bs.take n).length = n := by simp; omega
    refine ⟨(List.take_append_drop n bs).symm, hl, ?_⟩
    intro r
    unfold rdBytes
    rw [if_pos (by rw [List.length_append, hl]; omega), List.take_left' hl, List.drop_left' hl]
  · simp at h

theorem rdBe_local {n : Nat} {bs rest : Bytes} {v : Nat} (h : rdBe n bs = some (v, rest)) :
    ∃ c, bs = c ++ rest ∧ ∀ r, rdBe n (c ++ r) = some (v, r) := by
  unfold rdBe at h
  split at h
  · rename_i hn
    simp only [Option.some.injEq, Prod.mk.injEq] at h
    obtain ⟨rfl, rfl⟩ := h
    have hl : (bs.take n).length = n := by simp; omega
    refine ⟨bs.take n, (List.take_append_drop n bs).symm, ?_⟩
    intro r
    unfold rdBe
    rw [if_pos (by rw [List.length_append, hl]; omega), List.take_left' hl, List.drop_left' hl]
  · simp at h

theorem rdHead_local : Local (fun bs => (rdHead bs).map fun p => ((p.1, p.2.1), p.2.2)) := by
  intro bs a rest h
  cases bs with
  | nil => simp [rdHead] at h
  | cons b bs =>
    simp only [Option.map_eq_some_iff] at h
    obtain ⟨⟨major, arg, rest'⟩, h, he⟩ := h
    simp only [Prod.mk.injEq] at he
    obtain ⟨rfl, rfl⟩ := he
    simp only [rdHead] at h
    have aux : ∀ n, (rdBe n bs).map (fun p => (b.toNat / 32, Arg.val p.1, p.2))
        = some (major, arg, rest') → ∃ c, bs = c ++ rest' ∧ ∀ r,
        (rdBe n (c ++ r)).map (fun p => (b.toNat / 32, Arg.val p.1, p.2)) = some (major, arg, r) := by
      intro n hn
      simp only [Option.map_eq_some_iff] at hn
      obtain ⟨⟨v, rr⟩, hv, he⟩ := hn
      simp only [Prod.mk.injEq] at he
      obtain ⟨rfl, rfl, rfl⟩ := he
      obtain ⟨c, hc, hr⟩ := rdBe_local hv
      exact ⟨c, hc, fun r => by rw [hr]; rfl⟩
    split at h
    · rename_i hai
      simp only [Option.some.injEq, Prod.mk.injEq] at h
      obtain ⟨rfl, rfl, rfl⟩ := h
      exact ⟨[b], by simp, rfl, fun r => by simp [rdHead, hai]⟩
    · split at h
      · obtain ⟨c, hc, hr⟩ := aux 1 h
        refine ⟨b :: c, by simp, by rw [hc]; rfl, fun r => ?_⟩
        simp_all [rdHead]
      · split at h
        · obtain ⟨c, hc, hr⟩ := aux 2 h
          refine ⟨b :: c, by simp, by rw [hc]; rfl, fun r => ?_⟩
          simp_all [rdHead]
        · split at h
          · obtain ⟨c, hc, hr⟩ := aux 4 h
            refine ⟨b :: c, by simp, by rw [hc]; rfl, fun r => ?_⟩
            simp_all [rdHead]
          · split at h
            · obtain ⟨c, hc, hr⟩ := aux 8 h
              refine ⟨b :: c, by simp, by rw [hc]; rfl, fun r => ?_⟩
              simp_all [rdHead]
            · split at h
              · simp only [Option.some.injEq, Prod.mk.injEq] at h
                obtain ⟨rfl, rfl, rfl⟩ := h
                exact ⟨[b], by simp, rfl, fun r => by simp_all [rdHead]⟩
              · simp at h

theorem rdHead_local' {bs rest : Bytes} {m : Nat} {a : Arg} (h : rdHead bs = some (m, a, rest)) :
    ∃ c, c ≠ [] ∧ bs = c ++ rest ∧ ∀ r, rdHead (c ++ r) = some (m, a, r) := by
  obtain ⟨c, hc, he, hr⟩ := rdHead_local bs (m, a) rest (by simp [h])
  refine ⟨c, hc, he, fun r => ?_⟩
  have := hr r
  simp only [Option.map_eq_some_iff] at this
  obtain ⟨⟨m', a', r'⟩, h1, h2⟩ := this
  simp only [Prod.mk.injEq] at h2
  obtain ⟨⟨rfl, rfl⟩, rfl⟩ := h2
  exact h1

theorem rdMany_local {f : Bytes → Option (Cbor × Bytes)} (hf : Local f) (n : Nat) :
    ∀ {bs rest : Bytes} {l : List Cbor}, rdMany f n bs = some (l, rest) →
      ∃ c, bs = c ++ rest ∧ ∀ r, rdMany f n (c ++ r) = some (l, r) := by
  induction n with
  | zero =>
    intro bs rest l h
    simp only [rdMany, Option.some.injEq, Prod.mk.injEq] at h
    obtain ⟨rfl, rfl⟩ := h
    exact ⟨[], rfl, fun r => rfl⟩
  | succ n ih =>
    intro bs rest l h
    simp only [rdMany] at h
    split at h
    · simp at h
    · rename_i v bs' hv
      split at h
      · simp at h
      · rename_i l' bs'' hl
        simp only [Option.some.injEq, Prod.mk.injEq] at h
        obtain ⟨rfl, rfl⟩ := h
        obtain ⟨c1, _, rfl, h1⟩ := hf _ _ _ hv
        obtain ⟨c2, rfl, h2⟩ := ih hl
        refine ⟨c1 ++ c2, by simp, fun r => ?_⟩
        simp only [rdMany]
        rw [List.append_assoc, h1]
        simp only [h2]

theorem rdUntil_local {f : Bytes → Option (Cbor × Bytes)} (hf : Local f) (n : Nat) :
    ∀ {bs rest : Bytes} {l : List Cbor}, rdUntil f n bs = some (l, rest) →
      ∃ c, bs = c ++ rest ∧ ∀ r n', c.length ≤ n' → rdUntil f n' (c ++ r) = some (l, r) := by
  induction n with
  | zero => intro bs rest l h; simp [rdUntil] at h
  | succ n ih =>
    intro bs rest l h
    cases bs with
    | nil => simp [rdUntil] at h
    | cons b bs =>
      simp only [rdUntil] at h
      split at h
      · rename_i hb
        simp only [Option.some.injEq, Prod.mk.injEq] at h
        obtain ⟨rfl, rfl⟩ := h
        refine ⟨[b], rfl, fun r n' hn => ?_⟩
        cases n' with
        | zero => simp at hn
        | succ n' => simp [rdUntil, hb]
      · rename_i hb
        split at h
        · simp at h
        · rename_i v bs' hv
          split at h
          · simp at h
          · rename_i l' bs'' hl
            simp only [Option.some.injEq, Prod.mk.injEq] at h
            obtain ⟨rfl, rfl⟩ := h
            obtain ⟨c1, hne, he, h1⟩ := hf _ _ _ hv
            obtain ⟨c2, rfl, h2⟩ := ih hl
            cases c1 with
            | nil => exact absurd rfl hne
            | cons b' c1 =>
              simp only [List.cons_append, List.cons.injEq] at he
              obtain ⟨rfl, rfl⟩ := he
              refine ⟨b :: c1 ++ c2, by simp, fun r n' hn => ?_⟩
              cases n' with
              | zero => simp at hn
              | succ n' =>
                have h1' := h1 (c2 ++ r)
                simp only [List.cons_append] at h1'
                simp only [List.cons_append, List.append_assoc, rdUntil, if_neg hb, h1']
                rw [h2 r n' (by simp at hn; omega)]

theorem dec_local (d : Nat) : Local (dec d) := by
  induction d with
  | zero => intro bs a rest h; simp [dec] at h
  | succ d ih =>
    intro bs a rest h
    simp only [dec] at h
    split at h
    · simp at h
    · rename_i major arg rest1 hh
      obtain ⟨c, hne, rfl, hr⟩ := rdHead_local' hh
      have close : ∀ c2 : Bytes, rest1 = c2 ++ rest →
          (∀ r, dec (d + 1) (c ++ (c2 ++ r)) = some (a, r)) →
          ∃ c', c' ≠ [] ∧ c ++ rest1 = c' ++ rest ∧ ∀ r, dec (d + 1) (c' ++ r) = some (a, r) := by
        intro c2 h1 h2
        exact ⟨c ++ c2, by simp [hne], by rw [h1]; simp, fun r => by rw [List.append_assoc]; exact h2 r⟩
      split at h
      · simp only [Option.some.injEq, Prod.mk.injEq] at h
        obtain ⟨rfl, rfl⟩ := h
        exact close [] rfl (fun r => by simp only [dec, List.nil_append, hr])
      · simp only [Option.some.injEq, Prod.mk.injEq] at h
        obtain ⟨rfl, rfl⟩ := h
        exact close [] rfl (fun r => by simp only [dec, List.nil_append, hr])
      · simp only [Option.map_eq_some_iff] at h
        obtain ⟨⟨x, y⟩, hx, he⟩ := h
        simp only [Prod.mk.injEq] at he
        obtain ⟨rfl, rfl⟩ := he
        obtain ⟨h1, _, h2⟩ := rdBytes_local hx
        exact close x h1 (fun r => by simp only [dec, hr, h2, Option.map_some])
      · simp only [Option.map_eq_some_iff] at h
        obtain ⟨⟨x, y⟩, hx, he⟩ := h
        simp only [Prod.mk.injEq] at he
        obtain ⟨rfl, rfl⟩ := he
        obtain ⟨h1, _, h2⟩ := rdBytes_local hx
        exact close x h1 (fun r => by simp only [dec, hr, h2, Option.map_some])
      · simp only [Option.map_eq_some_iff] at h
        obtain ⟨⟨x, y⟩, hx, he⟩ := h
        simp only [Prod.mk.injEq] at he
        obtain ⟨rfl, rfl⟩ := he
        obtain ⟨c2, h1, h2⟩ := rdMany_local ih _ hx
        exact close c2 h1 (fun r => by simp only [dec, hr, h2, Option.map_some])
      · simp only [Option.map_eq_some_iff] at h
        obtain ⟨⟨x, y⟩, hx, he⟩ := h
        simp only [Prod.mk.injEq] at he
        obtain ⟨rfl, rfl⟩ := he
        obtain ⟨c2, h1, h2⟩ := rdMany_local ih _ hx
        exact close c2 h1 (fun r => by simp only [dec, hr, h2, Option.map_some])
      · split at h
        · simp at h
        · rename_i l rest' hl
          split at h
          · rename_i hev
            simp only [Option.some.injEq, Prod.mk.injEq] at h
            obtain ⟨rfl, rfl⟩ := h
            obtain ⟨c2, h1, h2⟩ := rdUntil_local ih _ hl
            refine close c2 h1 (fun r => ?_)
            simp only [dec, hr]
            rw [h2 r _ (by simp; omega)]
            simp [hev]
          · simp at h
      · simp only [Option.some.injEq, Prod.mk.injEq] at h
        obtain ⟨rfl, rfl⟩ := h
        exact close [] rfl (fun r => by simp only [dec, List.nil_append, hr])
      · simp at h

end Cbor

theorem Serde.read_local {α : Type} (f : Cbor → Option α) : Local (Serde.read f) := by
  intro bs a rest h
  unfold Serde.read at h
  split at h
  · simp at h
  · rename_i v rest' hv
    simp only [Option.map_eq_some_iff, Prod.mk.injEq] at h
    obtain ⟨a', ha, rfl, rfl⟩ := h
    obtain ⟨c, hne, he, hr⟩ := Cbor.dec_local _ _ _ _ hv
    refine ⟨c, hne, he, fun r => ?_⟩
    unfold Serde.read
    rw [hr]
    simp [ha]

end Backpak
