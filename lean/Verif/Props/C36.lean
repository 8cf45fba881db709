import Verif.Model.Snapshots
import Verif.Lemmas.Digits
import Verif.Props.C01

/-!
# C36 - Snapshot names resolve to the right snapshot
-/

namespace Backpak.C36

/-- The snapshots are loaded by ID, so no ID occurs twice. -/
def Distinct (l : List (Snap ObjectId)) : Prop := (l.map Prod.snd).Nodup

theorem distinct_one {l : List (Snap ObjectId)} (h : Distinct l) {s s' : Snap ObjectId} (h1 : s ∈ l)
    (h2 : s' ∈ l) (he : s.2 = s'.2) : s = s' := by
  induction l with
  | nil => cases h1
  | cons a l ih =>
    unfold Distinct at h
    rw [List.map_cons, List.nodup_cons] at h
    rcases List.mem_cons.mp h1 with e1 | g1
    · rcases List.mem_cons.mp h2 with e2 | g2
      · rw [e1, e2]
      · exact absurd (List.mem_map.mpr ⟨s', g2, by rw [← he, e1]⟩) h.1
    · rcases List.mem_cons.mp h2 with e2 | g2
      · exact absurd (List.mem_map.mpr ⟨s, g1, by rw [he, e2]⟩) h.1
      · exact ih h.2 g1 g2

/-- The text of an ID resolves to the snapshot with that ID. -/
theorem full_id (l : List (Snap ObjectId)) (hd : Distinct l) (s : Snap ObjectId) (hs : s ∈ l) :
    findSnap l s.2.display = .ok s := by
  unfold findSnap
  rw [C01.parse_display]
  have hf : l.find? (fun x => decide (x.2 = s.2)) = some s := by
    cases hf : l.find? (fun x => decide (x.2 = s.2)) with
    | none =>
      have := List.find?_eq_none.mp hf s hs
      simp at this
    | some s' =>
      have h1 := List.find?_some hf
      have h2 := List.mem_of_find?_eq_some hf
      rw [distinct_one hd h2 hs (by simpa using h1)]
  simp only [hf]

/-- The text of an ID no snapshot has is an error. -/
theorem unknown_id (l : List (Snap ObjectId)) (id : ObjectId) (h : ∀ s ∈ l, s.2 ≠ id) :
    findSnap l id.display = .error (.err "No snapshot") := by
  unfold findSnap
  rw [C01.parse_display]
  have : l.find? (fun x => decide (x.2 = id)) = none :=
    List.find?_eq_none.mpr (fun s hs => by simpa using h s hs)
  simp only [this]

/-- Names starting with a capital letter are not IDs. -/
theorem capital_not_id (c : UInt8) (r : Bytes) (hc : 65 ≤ c.toNat ∧ c.toNat ≤ 90) :
    ObjectId.parse (c :: r) = none := by
  cases h : ObjectId.parse (c :: r) with
  | none => rfl
  | some id =>
    have h1 := C01.parse_canonical _ _ h
    have h2 := (C01.display_shape id).2 c (by rw [← h1]; simp)
    omega

/-- The decimal numeral of `n` with `k` digits. -/
def numeral (k n : Nat) : Bytes := (toDigits 10 k n).map (fun d => UInt8.ofNat (48 + d))

theorem numeral_digits (k n : Nat) :
    (numeral k n).all (fun b => decide (48 ≤ b.toNat ∧ b.toNat ≤ 57)) = true ∧
    (numeral k n).map (fun b => b.toNat - 48) = toDigits 10 k n := by
  have hd := toDigits_lt (B := 10) (by decide) k n
  unfold numeral
  constructor
  · simp only [List.all_map, List.all_eq_true, Function.comp, decide_eq_true_eq]
    intro d hm
    have := hd d hm
    rw [UInt8.toNat_ofNat']
    omega
  · rw [List.map_map]
    conv_rhs => rw [← List.map_id (toDigits 10 k n)]
    apply List.map_congr_left
    intro d hm
    have := hd d hm
    simp only [Function.comp, UInt8.toNat_ofNat', id]
    omega

/-- The names for the `n`th newest snapshot. -/
inductive LastName : Nat → Bytes → Prop
  | last : LastName 0 (ascii "LAST")
  | head : LastName 0 (ascii "HEAD")
  | last1 : LastName 1 (ascii "LAST~")
  | head1 : LastName 1 (ascii "HEAD~")
  | lastN (k n : Nat) : 0 < k → n < 10 ^ k → LastName n (ascii "LAST~" ++ numeral k n)
  | headN (k n : Nat) : 0 < k → n < 10 ^ k → LastName n (ascii "HEAD~" ++ numeral k n)

theorem lastSuffix_numeral (k n : Nat) (hk : 0 < k) (hn : n < 10 ^ k) (h64 : n < 2 ^ 64) :
    lastSuffix (126 :: numeral k n) = some (.ok n) := by
  obtain ⟨h1, h2⟩ := numeral_digits k n
  have hlen : (numeral k n).length = k := by simp [numeral]
  generalize hm : numeral k n = m at *
  cases m with
  | nil => simp at hlen; omega
  | cons d ds =>
    simp only [lastSuffix, h1, h2, and_self, if_true]
    rw [ofDigits_toDigits k n hn, if_pos h64]

/-- `LAST~N` (or `HEAD~N`) is the snapshot with exactly `N` after it. -/
theorem last_name (l : List (Snap ObjectId)) (n : Nat) (name : Bytes) (hn : LastName n name)
    (h64 : n < 2 ^ 64) (s : Snap ObjectId) :
    findSnap l name = .ok s ↔ ∃ pre post, l = pre ++ s :: post ∧ post.length = n := by
  have hp : ObjectId.parse name = none := by
    cases hn with
    | last => exact capital_not_id _ _ (by decide)
    | head => exact capital_not_id _ _ (by decide)
    | last1 => exact capital_not_id _ _ (by decide)
    | head1 => exact capital_not_id _ _ (by decide)
    | lastN k n _ _ =>
      show ObjectId.parse (76 :: (ascii "AST~" ++ numeral k n)) = none
      exact capital_not_id _ _ (by decide)
    | headN k n _ _ =>
      show ObjectId.parse (72 :: (ascii "EAD~" ++ numeral k n)) = none
      exact capital_not_id _ _ (by decide)
  have hi : lastIndex name = some (.ok n) := by
    cases hn with
    | last => rfl
    | head => rfl
    | last1 => rfl
    | head1 => rfl
    | lastN k n hk hn => exact lastSuffix_numeral k n hk hn h64
    | headN k n hk hn => exact lastSuffix_numeral k n hk hn h64
  unfold findSnap
  simp only [hp, hi]
  have key : l.reverse[n]? = some s ↔ ∃ pre post, l = pre ++ s :: post ∧ post.length = n := by
    constructor
    · intro h
      obtain ⟨hlt, he⟩ := List.getElem?_eq_some_iff.mp h
      have hsplit : l.reverse = l.reverse.take n ++ s :: l.reverse.drop (n + 1) := by
        rw [← he, List.getElem_cons_drop, List.take_append_drop]
      refine ⟨(l.reverse.drop (n + 1)).reverse, (l.reverse.take n).reverse, ?_, ?_⟩
      · have := congrArg List.reverse hsplit
        rw [List.reverse_reverse, List.reverse_append, List.reverse_cons, List.append_assoc] at this
        exact this
      · simp only [List.length_reverse, List.length_take]
        have : n < l.reverse.length := hlt
        simp only [List.length_reverse] at this
        omega
    · rintro ⟨pre, post, rfl, rfl⟩
      simp
  rw [← key]
  cases l.reverse[n]? <;> simp

/-- `LAST~N` with fewer than `N + 1` snapshots is an error. -/
theorem last_too_far (l : List (Snap ObjectId)) (n : Nat) (name : Bytes) (hn : LastName n name)
    (h64 : n < 2 ^ 64) (hl : l.length ≤ n) : ∃ e, findSnap l name = .error e := by
  cases h : findSnap l name with
  | error e => exact ⟨e, rfl⟩
  | ok s =>
    obtain ⟨pre, post, rfl, rfl⟩ := (last_name l n name hn h64 s).mp h
    simp at hl
    omega

/-- A prefix of at least four characters, short of a whole ID, resolves to the only snapshot
it matches. -/
theorem unique_prefix (l : List (Snap ObjectId)) (name rest : Bytes)
    (s : Snap ObjectId) (hs : s ∈ l) (hname : s.2.display = name ++ rest) (hrest : rest ≠ [])
    (h4 : 4 ≤ name.length) (hd : Distinct l)
    (huniq : ∀ s' ∈ l, name <+: s'.2.display → s' = s) : findSnap l name = .ok s := by
  have hp : ObjectId.parse name = none := by
    cases h : ObjectId.parse name with
    | none => rfl
    | some id =>
      have h1 := C01.parse_canonical _ _ h
      have h2 := (C01.display_shape id).1
      have h3 := (C01.display_shape s.2).1
      rw [hname, List.length_append, h1, h2] at h3
      exact absurd (List.length_eq_zero_iff.mp (by omega)) hrest
  have hi : lastIndex name = none := by
    unfold lastIndex
    rw [if_neg]
    intro h
    cases name with
    | nil => simp at h4
    | cons c r =>
      have hc := (C01.display_shape s.2).2 c (by rw [hname]; simp)
      have : c = 76 ∨ c = 72 := by
        rcases h with h | h
        · left
          have := congrArg List.head? h
          simpa [ascii] using this
        · right
          have := congrArg List.head? h
          simpa [ascii] using this
      rcases this with rfl | rfl <;> simp at hc
  unfold findSnap
  simp only [hp, hi]
  rw [if_neg (by omega)]
  have hnd : l.Nodup := hd.of_map _
  have hf : l.filter (fun s => name.isPrefixOf s.2.display) = [s] := by
    have h1 : (l.filter (fun s => name.isPrefixOf s.2.display)).Nodup := hnd.filter _
    have h2 : ∀ x, x ∈ l.filter (fun s => name.isPrefixOf s.2.display) ↔ x = s := by
      intro x
      rw [List.mem_filter, List.isPrefixOf_iff_prefix]
      constructor
      · rintro ⟨hx, hp⟩; exact huniq x hx hp
      · rintro rfl; exact ⟨hs, by rw [hname]; exact List.prefix_append _ _⟩
    generalize l.filter (fun s => name.isPrefixOf s.2.display) = f at h1 h2
    cases f with
    | nil => have := (h2 s).mpr rfl; cases this
    | cons a f =>
      have ha := (h2 a).mp (by simp)
      subst ha
      cases f with
      | nil => rfl
      | cons b f =>
        have hb := (h2 b).mp (by simp)
        subst hb
        simp at h1
  simp only [hf]

theorem numeral_of (l : Bytes) (hall : l.all (fun b => decide (48 ≤ b.toNat ∧ b.toNat ≤ 57)) = true) :
    numeral l.length (ofDigits 10 (l.map (fun b => b.toNat - 48))) = l ∧
    ofDigits 10 (l.map (fun b => b.toNat - 48)) < 10 ^ l.length := by
  simp only [List.all_eq_true, decide_eq_true_eq] at hall
  have hdig : ∀ x ∈ l.map (fun b => b.toNat - 48), x < 10 := by
    intro x hx
    obtain ⟨b, hb, rfl⟩ := List.mem_map.mp hx
    have := hall b hb
    omega
  have hlen : (l.map (fun b => b.toNat - 48)).length = l.length := List.length_map _
  refine ⟨?_, ?_⟩
  · unfold numeral
    rw [← hlen, toDigits_ofDigits _ hdig, List.map_map]
    conv_rhs => rw [← List.map_id l]
    apply List.map_congr_left
    intro b hb
    have h1 := hall b hb
    apply UInt8.toNat_inj.mp
    simp only [Function.comp, UInt8.toNat_ofNat', id]
    omega
  · rw [← hlen]; exact ofDigits_lt _ hdig

theorem lastSuffix_name (P rest : Bytes) (hP : P = ascii "LAST" ∨ P = ascii "HEAD") (n : Nat)
    (hi : lastSuffix rest = some (.ok n)) : LastName n (P ++ rest) ∧ n < 2 ^ 64 := by
  match rest with
  | [] =>
    cases hi
    rcases hP with rfl | rfl
    · exact ⟨.last, Nat.two_pow_pos 64⟩
    · exact ⟨.head, Nat.two_pow_pos 64⟩
  | [c] =>
    simp only [lastSuffix] at hi
    split at hi
    · rename_i hc
      subst hc
      cases hi
      rcases hP with rfl | rfl
      · exact ⟨.last1, by omega⟩
      · exact ⟨.head1, by omega⟩
    · cases hi
  | c :: d :: ds =>
    simp only [lastSuffix] at hi
    split at hi
    · rename_i hc
      obtain ⟨rfl, hall⟩ := hc
      obtain ⟨hnum, hlt⟩ := numeral_of (d :: ds) hall
      generalize ofDigits 10 ((d :: ds).map (fun b => b.toNat - 48)) = v at hi hnum hlt
      by_cases h64 : v < 2 ^ 64
      · rw [if_pos h64] at hi
        cases hi
        rw [← hnum]
        rcases hP with rfl | rfl
        · exact ⟨LastName.lastN (d :: ds).length n (by simp) hlt, h64⟩
        · exact ⟨LastName.headN (d :: ds).length n (by simp) hlt, h64⟩
      · rw [if_neg h64] at hi
        cases hi
    · cases hi

theorem lastIndex_name (name : Bytes) (n : Nat) (hi : lastIndex name = some (.ok n)) :
    LastName n name ∧ n < 2 ^ 64 := by
  unfold lastIndex at hi
  split at hi
  · rename_i hpre
    have := lastSuffix_name _ _ hpre n hi
    rwa [List.take_append_drop] at this
  · cases hi

/-- Never a wrong snapshot: whatever the name, what it resolves to is in the list, and the name is
its ID, or `LAST`/`HEAD` with the number of snapshots after it, or a prefix of at least four
characters of its ID and of no other's. -/
theorem never_wrong (l : List (Snap ObjectId)) (name : Bytes) (s : Snap ObjectId)
    (h : findSnap l name = .ok s) :
    s ∈ l ∧ (name = s.2.display ∨
      (∃ n, LastName n name ∧ ∃ pre post, l = pre ++ s :: post ∧ post.length = n) ∨
      (4 ≤ name.length ∧ name <+: s.2.display ∧ ∀ s' ∈ l, name <+: s'.2.display → s' = s)) := by
  unfold findSnap at h
  split at h
  · rename_i id hid
    split at h
    · rename_i s' hs'
      cases h
      have h1 := List.find?_some hs'
      refine ⟨List.mem_of_find?_eq_some hs', .inl ?_⟩
      rw [C01.parse_canonical _ _ hid]
      simp only [decide_eq_true_eq] at h1
      rw [h1]
    · cases h
  · rename_i hpn
    split at h
    · cases h
    · rename_i n hi
      have hname := lastIndex_name name n hi
      have hfull : findSnap l name = .ok s := by
        unfold findSnap
        simp only [hpn, hi]
        exact h
      obtain ⟨pre, post, h1, h2⟩ := (last_name l n name hname.1 hname.2 s).mp hfull
      exact ⟨by rw [h1]; simp, .inr (.inl ⟨n, hname.1, pre, post, h1, h2⟩)⟩
    · split at h
      · cases h
      · rename_i hlen
        split at h
        · cases h
        · rename_i s' hf
          cases h
          have hmem : ∀ x, x ∈ l ∧ name <+: x.2.display ↔ x = s := by
            intro x
            rw [← List.isPrefixOf_iff_prefix]
            have : x ∈ l.filter (fun s => name.isPrefixOf s.2.display) ↔ x = s := by
              rw [hf]; simp
            rw [← this, List.mem_filter]
          have hs := (hmem s).mpr rfl
          exact ⟨hs.1, .inr (.inr ⟨by omega, hs.2, fun s' h1 h2 => (hmem s').mp ⟨h1, h2⟩⟩)⟩
        · cases h

/-- An ambiguous prefix is an error. -/
theorem ambiguous (l : List (Snap ObjectId)) (hd : Distinct l) (name : Bytes) (s s' : Snap ObjectId)
    (hs : s ∈ l) (hs' : s' ∈ l) (hne : s ≠ s') (h1 : name <+: s.2.display) (h2 : name <+: s'.2.display) :
    ∃ e, findSnap l name = .error e := by
  cases h : findSnap l name with
  | error e => exact ⟨e, rfl⟩
  | ok x =>
    exfalso
    obtain ⟨_, h3 | ⟨n, h3, _⟩ | ⟨_, _, h3⟩⟩ := never_wrong l name x h
    · subst h3
      have full : ∀ y : Snap ObjectId, x.2.display <+: y.2.display → x.2 = y.2 := by
        intro y hy
        exact C01.display_injective _ _
          (hy.eq_of_length (by rw [(C01.display_shape _).1, (C01.display_shape _).1]))
      exact hne (distinct_one hd hs hs' ((full s h1).symm.trans (full s' h2)))
    · have hc : ∃ c r, name = c :: r ∧ (c = 76 ∨ c = 72) := by
        cases h3 with
        | last => exact ⟨_, _, rfl, .inl rfl⟩
        | head => exact ⟨_, _, rfl, .inr rfl⟩
        | last1 => exact ⟨_, _, rfl, .inl rfl⟩
        | head1 => exact ⟨_, _, rfl, .inr rfl⟩
        | lastN k n _ _ => exact ⟨_, _, rfl, .inl rfl⟩
        | headN k n _ _ => exact ⟨_, _, rfl, .inr rfl⟩
      obtain ⟨c, r, rfl, hc⟩ := hc
      obtain ⟨t, ht⟩ := h1
      have := (C01.display_shape s.2).2 c (by rw [← ht]; simp)
      rcases hc with rfl | rfl <;> simp at this
    · exact hne ((h3 s hs h1).trans (h3 s' hs' h2).symm)

/-- A short name that is not `LAST` or `HEAD` is an error. -/
theorem short_name (l : List (Snap ObjectId)) (name : Bytes) (h : name.length < 4) :
    ∃ e, findSnap l name = .error e := by
  cases hf : findSnap l name with
  | error e => exact ⟨e, rfl⟩
  | ok x =>
    exfalso
    unfold findSnap at hf
    split at hf
    · rename_i id hid
      have h1 := C01.parse_canonical _ _ hid
      have h2 := (C01.display_shape id).1
      rw [← h1] at h2
      omega
    · have hi : lastIndex name = none := by
        unfold lastIndex
        rw [if_neg]
        rintro (h1 | h1) <;>
          · have := congrArg List.length h1
            simp [ascii] at this
            omega
      rw [hi] at hf
      simp only [if_pos h] at hf
      cases hf

theorem lastSuffix_error (P rest : Bytes) (hP : P = ascii "LAST" ∨ P = ascii "HEAD") {e : Fail}
    (hi : lastSuffix rest = some (.error e)) : ∃ n, LastName n (P ++ rest) ∧ 2 ^ 64 ≤ n := by
  match rest with
  | [] => cases hi
  | [c] =>
    simp only [lastSuffix] at hi
    split at hi <;> cases hi
  | c :: d :: ds =>
    simp only [lastSuffix] at hi
    split at hi
    · rename_i hc
      obtain ⟨rfl, hall⟩ := hc
      obtain ⟨hnum, hlt⟩ := numeral_of (d :: ds) hall
      generalize ofDigits 10 ((d :: ds).map (fun b => b.toNat - 48)) = v at hi hnum hlt
      by_cases h64 : v < 2 ^ 64
      · rw [if_pos h64] at hi
        cases hi
      · rw [← hnum]
        refine ⟨v, ?_, Nat.le_of_not_lt h64⟩
        rcases hP with rfl | rfl
        · exact LastName.lastN (d :: ds).length v (by simp) hlt
        · exact LastName.headN (d :: ds).length v (by simp) hlt
    · cases hi

theorem lastSuffix_large (k n : Nat) (hk : 0 < k) (hn : n < 10 ^ k) (h64 : 2 ^ 64 ≤ n) :
    lastSuffix (126 :: numeral k n) = some (.error (.panic "number too large to fit in target type")) := by
  obtain ⟨h1, h2⟩ := numeral_digits k n
  have hlen : (numeral k n).length = k := by simp [numeral]
  generalize hm : numeral k n = m at *
  cases m with
  | nil => simp at hlen; omega
  | cons d ds =>
    simp only [lastSuffix, h1, h2, and_self, if_true]
    rw [ofDigits_toDigits k n hn, if_neg (by omega)]

/-- The program crashes over a name exactly if it is `LAST~N` or `HEAD~N` with a number of more than 64 bits. -/
theorem panics_iff (l : List (Snap ObjectId)) (name : Bytes) :
    (∃ m, findSnap l name = .error (.panic m)) ↔ ∃ n, LastName n name ∧ 2 ^ 64 ≤ n := by
  constructor
  · rintro ⟨m, h⟩
    unfold findSnap at h
    split at h
    · split at h <;> cases h
    · split at h
      · rename_i e hi
        unfold lastIndex at hi
        split at hi
        · rename_i hpre
          have := lastSuffix_error _ _ hpre hi
          rwa [List.take_append_drop] at this
        · cases hi
      · split at h <;> cases h
      · split at h
        · cases h
        · split at h <;> cases h
  · rintro ⟨n, hn, h64⟩
    have hp : ObjectId.parse name = none ∧
        lastIndex name = some (.error (.panic "number too large to fit in target type")) := by
      cases hn with
      | last => omega
      | head => omega
      | last1 => omega
      | head1 => omega
      | lastN k n hk hn => exact ⟨capital_not_id 76 (ascii "AST~" ++ numeral k n) (by decide), lastSuffix_large k n hk hn h64⟩
      | headN k n hk hn => exact ⟨capital_not_id 72 (ascii "EAD~" ++ numeral k n) (by decide), lastSuffix_large k n hk hn h64⟩
    refine ⟨"number too large to fit in target type", ?_⟩
    unfold findSnap
    simp only [hp.1, hp.2]

example : ∃ m, findSnap [] (ascii "LAST~18446744073709551616") = .error (.panic m) :=
  (panics_iff _ _).mpr ⟨18446744073709551616, LastName.lastN 20 18446744073709551616 (by decide) (by decide), by decide⟩

/-- Three snapshots, and some names. -/
example : ∃ a b c : Snap ObjectId, Distinct [a, b, c] ∧ findSnap [a, b, c] (ascii "LAST~2") = .ok a ∧
    findSnap [a, b, c] (ascii "HEAD~") = .ok b ∧
    findSnap [a, b, c] (ascii "0410") = .error (.err "different snapshots start with") ∧
    findSnap [a, b, c] (c.2.display.take 4) = .ok c := by
  refine ⟨(⟨1, [], [], [], [], C01.sampleId⟩, ⟨[1, 2] ++ List.replicate 26 1, by decide⟩),
    (⟨2, [], [], [], [], C01.sampleId⟩, ⟨[1, 2] ++ List.replicate 26 2, by decide⟩),
    (⟨2, [], [], [], [], C01.sampleId⟩, ⟨[7, 2] ++ List.replicate 26 2, by decide⟩), ?_, ?_, ?_, ?_, ?_⟩
  · unfold Distinct; decide +kernel
  · decide +kernel
  · decide +kernel
  · decide +kernel
  · decide +kernel

end Backpak.C36
