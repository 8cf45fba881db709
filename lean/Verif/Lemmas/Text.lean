import Verif.Model.Text
import Verif.Spec.Text

/-!
# Reading listings
-/

namespace Backpak

open Spec

variable {Id : Type}

namespace Text

/-- Where the first `c` is, is where it is. -/
theorem cut {c : UInt8} : ∀ {a a' r r' : Bytes}, c ∉ a → c ∉ a' → a ++ c :: r = a' ++ c :: r' → a = a' ∧ r = r'
  | [], [], _, _, _, _, h => by simpa using h
  | [], y :: a', r, r', _, h', h => by
    simp only [List.nil_append, List.cons_append, List.cons.injEq] at h
    exact absurd (by simp [h.1]) h'
  | x :: a, [], r, r', h', _, h => by
    simp only [List.nil_append, List.cons_append, List.cons.injEq] at h
    exact absurd (by simp [h.1]) h'
  | x :: a, y :: a', r, r', h1, h2, h => by
    simp only [List.cons_append, List.cons.injEq] at h
    obtain ⟨g1, g2⟩ := cut (fun g => h1 (.tail _ g)) (fun g => h2 (.tail _ g)) h.2
    exact ⟨by rw [h.1, g1], g2⟩

theorem cut_line {c : UInt8} {a a' r r' : Bytes} (h : c ∉ a) (h' : c ∉ a') (he : a ++ [c] ++ r = a' ++ [c] ++ r') :
    a = a' ∧ r = r' := cut h h' (by simpa using he)

/-- What has no `c` and is found in two pieces with a `c` between is found in one of the pieces. -/
theorem infix_split {c : UInt8} {v a b : Bytes} (hc : c ∉ v) (h : v <:+: a ++ c :: b) : v <:+: a ∨ v <:+: b := by
  obtain ⟨s, t, h⟩ := h
  rw [List.append_assoc] at h
  rcases List.append_eq_append_iff.mp h with ⟨u, h1, h2⟩ | ⟨u, h1, h2⟩
  · -- `a = s ++ u`, `v ++ t = u ++ c :: b`
    rcases List.append_eq_append_iff.mp h2 with ⟨w, h3, h4⟩ | ⟨w, h3, h4⟩
    · exact .inl ⟨s, w, by rw [h1, h3, List.append_assoc]⟩
    · cases w with
      | nil => exact .inl ⟨s, [], by rw [h1, h3]; simp⟩
      | cons x w =>
        simp only [List.cons_append, List.cons.injEq] at h4
        exact absurd (by rw [h3, ← h4.1]; simp) hc
  · cases u with
    | nil =>
      rw [List.nil_append] at h2
      cases v with
      | nil => exact .inl ⟨[], a, rfl⟩
      | cons x v =>
        simp only [List.cons_append, List.cons.injEq] at h2
        exact absurd (by rw [h2.1]; simp) hc
    | cons x u =>
      simp only [List.cons_append, List.cons.injEq] at h2
      exact .inr ⟨u, t, by rw [List.append_assoc, ← h2.2]⟩

/-- Names, with a separator before each but the first. -/
def joined : Path → Bytes
  | [] => []
  | [n] => n
  | n :: p => n ++ 47 :: joined p

theorem joined_cons {n : Name} {p : Path} (h : p ≠ []) : joined (n :: p) = n ++ 47 :: joined p := by
  cases p with
  | nil => exact absurd rfl h
  | cons => rfl

theorem foldl_push : ∀ (p : Path) (b : Bytes), b ≠ [] → b.getLast? ≠ some 47 → (∀ n ∈ p, n ≠ [] ∧ 47 ∉ n) → p ≠ [] →
    p.foldl pushPath b = b ++ 47 :: joined p
  | [], _, _, _, _, h => absurd rfl h
  | n :: p, b, h1, h2, h3, _ => by
    obtain ⟨g1, g2⟩ := h3 n (.head _)
    have hh : n.head? ≠ some 47 := fun g => g2 (List.mem_of_head? g)
    have hp : pushPath b n = b ++ 47 :: n := by
      simp [pushPath, hh, h1, hasTrailingSlash, h2]
    have hl : (b ++ 47 :: n).getLast? ≠ some 47 := by
      rw [List.getLast?_append_of_ne_nil _ (by simp), List.getLast?_cons_of_ne_nil g1]
      exact fun g => g2 (List.mem_of_getLast? g)
    rw [List.foldl_cons, hp]
    by_cases hpn : p = []
    · subst hpn; rfl
    · rw [foldl_push p _ (by simp) hl (fun m hm => h3 m (.tail _ hm)) hpn, joined_cons hpn]
      simp

theorem pathString_joined {p : Path} (h : ∀ n ∈ p, n ≠ [] ∧ 47 ∉ n) : pathString p = joined p := by
  cases p with
  | nil => rfl
  | cons n p =>
    obtain ⟨g1, g2⟩ := h n (.head _)
    have hh : n.head? ≠ some 47 := fun g => g2 (List.mem_of_head? g)
    have hp : pushPath [] n = n := by simp [pushPath, hh]
    rw [pathString, List.foldl_cons, hp]
    by_cases hpn : p = []
    · subst hpn; rfl
    · rw [foldl_push p n g1 (fun g => g2 (List.mem_of_getLast? g)) (fun m hm => h m (.tail _ hm)) hpn, joined_cons hpn]

theorem joined_mem : ∀ {p : Path} {c : UInt8}, c ∈ joined p → c = 47 ∨ ∃ n ∈ p, c ∈ n
  | [], _, h => by cases h
  | [n], _, h => .inr ⟨n, by simp, h⟩
  | n :: m :: p, c, h => by
    rw [joined_cons (by simp), List.mem_append, List.mem_cons] at h
    rcases h with h | h | h
    · exact .inr ⟨n, by simp, h⟩
    · exact .inl h
    · rcases joined_mem h with h | ⟨k, h1, h2⟩
      · exact .inl h
      · exact .inr ⟨k, .tail _ h1, h2⟩

theorem joined_ne {p : Path} (hp : p ≠ []) (h : ∀ n ∈ p, n ≠ []) : joined p ≠ [] := by
  match p with
  | [] => exact absurd rfl hp
  | [n] => exact h n (.head _)
  | n :: m :: p => rw [joined_cons (by simp)]; simp

theorem joined_last : ∀ {p : Path}, p ≠ [] → (∀ n ∈ p, n ≠ [] ∧ 47 ∉ n) → (joined p).getLast? ≠ some 47
  | [], h, _ => absurd rfl h
  | [n], _, h => fun g => (h n (.head _)).2 (List.mem_of_getLast? g)
  | n :: m :: p, _, h => by
    have hne : joined (m :: p) ≠ [] := joined_ne (by simp) (fun k hk => (h k (.tail _ hk)).1)
    rw [joined_cons (by simp), List.getLast?_append_of_ne_nil _ (by simp), List.getLast?_cons_of_ne_nil hne]
    exact joined_last (by simp) (fun k hk => h k (.tail _ hk))

theorem joined_inj : ∀ {p q : Path}, p ≠ [] → q ≠ [] → (∀ n ∈ p, 47 ∉ n) → (∀ n ∈ q, 47 ∉ n) → joined p = joined q →
    p = q
  | [], _, h, _, _, _, _ => absurd rfl h
  | _, [], _, h, _, _, _ => absurd rfl h
  | [n], [m], _, _, _, _, h => by rw [show n = m from h]
  | [n], m :: m' :: q, _, _, h1, _, h => by
    have h' : n = m ++ 47 :: joined (m' :: q) := h
    exact absurd (by rw [h']; simp) (h1 n (.head _))
  | n :: n' :: p, [m], _, _, _, h2, h => by
    have h' : n ++ 47 :: joined (n' :: p) = m := h
    exact absurd (by rw [← h']; simp) (h2 m (.head _))
  | n :: n' :: p, m :: m' :: q, _, _, h1, h2, h => by
    obtain ⟨g1, g2⟩ := cut (h1 n (.head _)) (h2 m (.head _)) (show n ++ 47 :: joined (n' :: p) =
      m ++ 47 :: joined (m' :: q) from h)
    rw [g1, joined_inj (by simp) (by simp) (fun k hk => h1 k (.tail _ hk)) (fun k hk => h2 k (.tail _ hk)) g2]

/-- An arrow in a path is in one of its names. -/
theorem joined_arrow : ∀ {p : Path}, arrow <:+: joined p ++ [32] → ∃ n ∈ p, arrow <:+: n ++ [32]
  | [], h => by
    have := h.length_le
    simp [arrow, joined] at this
  | [n], h => ⟨n, by simp, h⟩
  | n :: m :: p, h => by
    rw [joined_cons (by simp), List.append_assoc, List.cons_append] at h
    rcases infix_split (by decide) h with h | h
    · exact ⟨n, by simp, h.trans (List.infix_append' [] _ _)⟩
    · obtain ⟨k, h1, h2⟩ := joined_arrow h
      exact ⟨k, .tail _ h1, h2⟩

/-- Where the first arrow is, is where it is. -/
theorem cut_arrow {a a' t t' : Bytes} (h1 : ¬ arrow <:+: a ++ [32]) (h2 : ¬ arrow <:+: a' ++ [32])
    (h : a ++ (arrow ++ t) = a' ++ (arrow ++ t')) : a = a' ∧ t = t' := by
  have key : ∀ {a c t t' : Bytes}, ¬ arrow <:+: (a ++ c) ++ [32] → arrow ++ t = c ++ (arrow ++ t') → c = [] := by
    intro a c t t' hn he
    match c with
    | [] => rfl
    | [x] => simp [arrow] at he
    | [x, y] => simp [arrow] at he
    | [x, y, z] =>
      simp only [arrow, List.cons_append, List.nil_append, List.cons.injEq] at he
      exact absurd ⟨a, [], by rw [← he.1, ← he.2.1, ← he.2.2.1]; simp [arrow]⟩ hn
    | x :: y :: z :: w :: c =>
      simp only [arrow, List.cons_append, List.nil_append, List.cons.injEq] at he
      exact absurd ⟨a, c ++ [32], by rw [← he.1, ← he.2.1, ← he.2.2.1, ← he.2.2.2.1]; simp [arrow]⟩ hn
  rcases List.append_eq_append_iff.mp h with ⟨c, g1, g2⟩ | ⟨c, g1, g2⟩
  · have := key (g1 ▸ h2) g2
    subst this
    exact ⟨by simpa using g1.symm, by simpa using g2⟩
  · have := key (g1 ▸ h1) g2
    subst this
    exact ⟨by simpa using g1, by simpa using g2.symm⟩

/-- A line that can be told. -/
structure Plain (e : Line Id) : Prop where
  ne : e.1 ≠ []
  names : ∀ n ∈ e.1, PlainName n
  target : ∀ t, e.2.contents = .link t → 10 ∉ t

/-- What comes after the path. -/
def rest : Told → Bytes
  | .dir => [47]
  | .file => []
  | .link t => arrow ++ t

theorem lineText_eq {e : Line Id} (h : Plain e) (pre : Bytes) :
    lineText pre e = pre ++ (joined e.1 ++ rest (Told.ofContents e.2.contents)) ++ [10] := by
  have h1 := pathString_joined (fun n hn => ⟨(h.names n hn).ne, (h.names n hn).slash⟩)
  have h2 := joined_last h.ne (fun n hn => ⟨(h.names n hn).ne, (h.names n hn).slash⟩)
  unfold lineText
  rw [h1]
  cases hc : e.2.contents <;> simp [hasTrailingSlash, h2, Told.ofContents, rest, arrow]

theorem body_newline {e : Line Id} (h : Plain e) : 10 ∉ joined e.1 ++ rest (Told.ofContents e.2.contents) := by
  rw [List.mem_append]
  rintro (g | g)
  · rcases joined_mem g with g | ⟨n, g1, g2⟩
    · simp at g
    · exact (h.names n g1).newline g2
  · cases hc : e.2.contents with
    | dir _ => simp [hc, Told.ofContents, rest] at g
    | file _ => simp [hc, Told.ofContents, rest] at g
    | link t =>
      simp only [hc, Told.ofContents, rest, arrow, List.mem_append, List.mem_cons, List.not_mem_nil, or_false] at g
      rcases g with g | g
      · simp at g
      · exact h.target t hc g

theorem no_arrow {e : Line Id} (h : Plain e) : ¬ arrow <:+: joined e.1 ++ [32] := by
  intro g
  obtain ⟨n, h1, h2⟩ := joined_arrow g
  exact (h.names n h1).arrow h2

theorem arrow_slash {b : Bytes} (h : arrow <:+: b ++ [47]) : arrow <:+: b := by
  rcases infix_split (by decide) h with h | h
  · exact h
  · have := h.length_le
    simp [arrow] at this

theorem body_inj {Id' : Type} {e : Line Id} {e' : Line Id'} (h : Plain e) (h' : Plain e')
    (heq : joined e.1 ++ rest (Told.ofContents e.2.contents) = joined e'.1 ++ rest (Told.ofContents e'.2.contents)) :
    e.1 = e'.1 ∧ Told.ofContents e.2.contents = Told.ofContents e'.2.contents := by
  have l1 := joined_last h.ne (fun n hn => ⟨(h.names n hn).ne, (h.names n hn).slash⟩)
  have l2 := joined_last h'.ne (fun n hn => ⟨(h'.names n hn).ne, (h'.names n hn).slash⟩)
  have a1 := no_arrow h
  have a2 := no_arrow h'
  have fin : joined e.1 = joined e'.1 → e.1 = e'.1 :=
    joined_inj h.ne h'.ne (fun n hn => (h.names n hn).slash) (fun n hn => (h'.names n hn).slash)
  have noA : ∀ {b t : Bytes}, ¬ arrow <:+: b ++ [32] → ∀ a, b ≠ a ++ (arrow ++ t) ∧ b ++ [47] ≠ a ++ (arrow ++ t) := by
    intro b t hb a
    have hb' : ¬ arrow <:+: b := fun g => hb (g.trans (List.infix_append' [] _ _))
    exact ⟨fun g => hb' ⟨a, t, by rw [g, List.append_assoc]⟩,
      fun g => hb' (arrow_slash ⟨a, t, by rw [g, List.append_assoc]⟩)⟩
  cases hs : Told.ofContents e.2.contents <;> cases hs' : Told.ofContents e'.2.contents <;>
    simp only [hs, hs', rest, List.append_nil] at heq
  · exact ⟨fin (List.append_cancel_right heq), rfl⟩
  · exact absurd (by rw [← heq]; simp) l2
  · exact absurd heq (noA a1 _).2
  · exact absurd (by rw [heq]; simp) l1
  · exact ⟨fin heq, rfl⟩
  · exact absurd heq (noA a1 _).1
  · exact absurd heq.symm (noA a2 _).2
  · exact absurd heq.symm (noA a2 _).1
  · obtain ⟨g1, g2⟩ := cut_arrow a1 a2 heq
    exact ⟨fin g1, by rw [g2]⟩

/-- What a reader learns from a line. -/
def shown (e : Line Id) : Path × Told := (e.1, Told.ofContents e.2.contents)

theorem lsText_inj {Id' : Type} : ∀ {L : List (Line Id)} {L' : List (Line Id')}, (∀ e ∈ L, Plain e) → (∀ e ∈ L', Plain e) →
    lsText L = lsText L' → L.map shown = L'.map shown
  | [], [], _, _, _ => rfl
  | [], e' :: L', _, h', h => by
    have h2 : ([] : Bytes) = lineText [] e' ++ lsText L' := h
    rw [lineText_eq (h' e' (.head _))] at h2
    simp at h2
  | e :: L, [], h', _, h => by
    have h2 : lineText [] e ++ lsText L = ([] : Bytes) := h
    rw [lineText_eq (h' e (.head _))] at h2
    simp at h2
  | e :: L, e' :: L', h1, h2, h => by
    have h3 : lineText [] e ++ lsText L = lineText [] e' ++ lsText L' := h
    rw [lineText_eq (h1 e (.head _)), lineText_eq (h2 e' (.head _)), List.nil_append, List.nil_append] at h3
    obtain ⟨g1, g2⟩ := cut_line (body_newline (h1 e (.head _))) (body_newline (h2 e' (.head _))) h3
    obtain ⟨g3, g4⟩ := body_inj (h1 e (.head _)) (h2 e' (.head _)) g1
    rw [List.map_cons, List.map_cons, lsText_inj (fun x hx => h1 x (.tail _ hx)) (fun x hx => h2 x (.tail _ hx)) g2]
    rw [shown, shown, g3, g4]

/-- The letters `diff` uses. -/
def SignOk : Sign → Prop
  | .md c => c ∈ ['O', 'P', 'T', 'A', 'M']
  | _ => True

theorem sign_text {s : Sign} (h : SignOk s) : ∃ b, s.text = [b, 32] ∧ b ≠ 10 := by
  cases s with
  | md c =>
    simp only [SignOk, List.mem_cons, List.not_mem_nil, or_false] at h
    rcases h with rfl | rfl | rfl | rfl | rfl <;> exact ⟨_, rfl, by decide⟩
  | _ => exact ⟨_, rfl, by decide⟩

theorem sign_inj {s s' : Sign} (h : SignOk s) (h' : SignOk s') (he : s.text = s'.text) : s = s' := by
  cases s with
  | md c =>
    simp only [SignOk, List.mem_cons, List.not_mem_nil, or_false] at h
    cases s' with
    | md c' =>
      simp only [SignOk, List.mem_cons, List.not_mem_nil, or_false] at h'
      rcases h with rfl | rfl | rfl | rfl | rfl <;> rcases h' with rfl | rfl | rfl | rfl | rfl <;>
        first | rfl | (exact absurd he (by decide))
    | _ => rcases h with rfl | rfl | rfl | rfl | rfl <;> exact absurd he (by decide)
  | _ =>
    cases s' with
    | md c' =>
      simp only [SignOk, List.mem_cons, List.not_mem_nil, or_false] at h'
      rcases h' with rfl | rfl | rfl | rfl | rfl <;> exact absurd he (by decide)
    | _ => first | rfl | (exact absurd he (by decide))

/-- What a reader learns from a line of `diff`. -/
def shownD (e : DiffLine Id) : Sign × Path × Told := (e.1, shown e.2)

theorem diffText_inj {Id' : Type} : ∀ {L : List (DiffLine Id)} {L' : List (DiffLine Id')},
    (∀ e ∈ L, SignOk e.1 ∧ Plain e.2) → (∀ e ∈ L', SignOk e.1 ∧ Plain e.2) → diffText L = diffText L' →
    L.map shownD = L'.map shownD
  | [], [], _, _, _ => rfl
  | [], e' :: L', _, h', h => by
    have h2 : ([] : Bytes) = lineText e'.1.text e'.2 ++ diffText L' := h
    rw [lineText_eq (h' e' (.head _)).2] at h2
    simp at h2
  | e :: L, [], h', _, h => by
    have h2 : lineText e.1.text e.2 ++ diffText L = ([] : Bytes) := h
    rw [lineText_eq (h' e (.head _)).2] at h2
    simp at h2
  | e :: L, e' :: L', h1, h2, h => by
    obtain ⟨s1, p1⟩ := h1 e (.head _)
    obtain ⟨s2, p2⟩ := h2 e' (.head _)
    obtain ⟨b, t1, _⟩ := sign_text s1
    obtain ⟨b', t2, _⟩ := sign_text s2
    have h3 : lineText e.1.text e.2 ++ diffText L = lineText e'.1.text e'.2 ++ diffText L' := h
    rw [lineText_eq p1, lineText_eq p2, t1, t2] at h3
    simp only [List.cons_append, List.nil_append, List.cons.injEq, true_and] at h3
    obtain ⟨hb, h3⟩ := h3
    obtain ⟨g1, g2⟩ := cut_line (body_newline p1) (body_newline p2) h3
    obtain ⟨g3, g4⟩ := body_inj p1 p2 g1
    rw [List.map_cons, List.map_cons, diffText_inj (fun x hx => h1 x (.tail _ hx)) (fun x hx => h2 x (.tail _ hx)) g2]
    rw [shownD, shownD, shown, shown, g3, g4, sign_inj s1 s2 (by rw [t1, t2, hb])]

theorem lineText_lineString (pre : Bytes) (e : Line Id) : lineText pre e = pre ++ (lineString e.1 e.2 ++ [10]) := by
  unfold lineText lineString hasTrailingSlash
  cases e.2.contents with
  | dir sub =>
    by_cases h : (pathString e.1).getLast? = some 47
    · simp [h]
    · simp [h]
  | file cs => simp
  | link t =>
    have : ascii " -> " = [32, 45, 62, 32] := by decide +kernel
    simp [this]

theorem lineText_newline {e : DiffLine Id} (h : SignOk e.1 ∧ Plain e.2) : ∃ a, lineText e.1.text e.2 = a ++ [10] ∧ 10 ∉ a := by
  obtain ⟨b, t1, hb⟩ := sign_text h.1
  refine ⟨_, lineText_eq h.2 _, ?_⟩
  rw [t1]
  have := body_newline h.2
  simp only [List.cons_append, List.nil_append, List.mem_cons, not_or]
  exact ⟨hb.symm, by decide, this⟩

/-- Indented lines tell the lines. -/
theorem indented_inj {Id' : Type} : ∀ {L : List (DiffLine Id)} {L' : List (DiffLine Id')},
    (∀ e ∈ L, SignOk e.1 ∧ Plain e.2) → (∀ e ∈ L', SignOk e.1 ∧ Plain e.2) →
    L.flatMap (fun e => 32 :: lineText e.1.text e.2) = L'.flatMap (fun e => 32 :: lineText e.1.text e.2) →
    diffText L = diffText L'
  | [], [], _, _, _ => rfl
  | [], e' :: L', _, _, h => by simp at h
  | e :: L, [], _, _, h => by simp at h
  | e :: L, e' :: L', h1, h2, h => by
    obtain ⟨a, g1, g2⟩ := lineText_newline (h1 e (.head _))
    obtain ⟨a', g1', g2'⟩ := lineText_newline (h2 e' (.head _))
    simp only [List.flatMap_cons, List.cons_append, List.cons.injEq, true_and] at h
    rw [g1, g1'] at h
    obtain ⟨ha, hr⟩ := cut_line g2 g2' h
    have := indented_inj (fun x hx => h1 x (.tail _ hx)) (fun x hx => h2 x (.tail _ hx)) hr
    unfold diffText at this ⊢
    rw [List.flatMap_cons, List.flatMap_cons, this, g1, g1', ha]

/-- Plain names and targets throughout. -/
def AllPlain {F : Type} : Dir F → Prop
  | .nil => True
  | .leaf n _ l rest => PlainName n ∧ (∀ t, l = .link t → 10 ∉ t) ∧ AllPlain rest
  | .dir n _ sub rest => PlainName n ∧ AllPlain sub ∧ AllPlain rest

theorem AllPlain.child {F : Type} : ∀ {d : Dir F} {n : Name} {md : Meta} {o : Option (Leaf F)} {sub : Dir F}, AllPlain d →
    child d n = some ((md, o), sub) → PlainName n ∧ (∀ t, o = some (.link t) → 10 ∉ t) ∧ AllPlain sub
  | .nil, _, _, _, _, _, h => by simp [Spec.child] at h
  | .leaf m md' l rest, n, md, o, sub, hp, h => by
    obtain ⟨h1, h2, h3⟩ := hp
    rw [Spec.child] at h
    split at h
    · cases h; subst n
      exact ⟨h1, fun t ht => h2 t (by simpa using ht), trivial⟩
    · exact child h3 h
  | .dir m md' sub' rest, n, md, o, sub, hp, h => by
    obtain ⟨h1, h2, h3⟩ := hp
    rw [Spec.child] at h
    split at h
    · cases h; subst n
      exact ⟨h1, (fun t ht => by simp at ht), h2⟩
    · exact child h3 h

theorem AllPlain.entry {F : Type} : ∀ {p : Path} {d : Dir F} {e : Meta × Option (Leaf F)}, AllPlain d →
    entry d p = some e → (∀ n ∈ p, PlainName n) ∧ ∀ t, e.2 = some (.link t) → 10 ∉ t
  | [], d, e, _, h => by simp [Spec.entry] at h
  | [n], d, e, hp, h => by
    rw [Spec.entry, Option.map_eq_some_iff] at h
    obtain ⟨⟨⟨md, o⟩, sub⟩, h1, rfl⟩ := h
    obtain ⟨g1, g2, _⟩ := hp.child h1
    exact ⟨fun m hm => (List.mem_singleton.mp hm) ▸ g1, g2⟩
  | n :: m :: q, d, e, hp, h => by
    rw [Spec.entry] at h
    · split at h
      · rename_i md sub hc
        obtain ⟨g1, _, g3⟩ := hp.child hc
        obtain ⟨a1, a2⟩ := entry g3 h
        exact ⟨fun k hk => by
          rcases List.mem_cons.mp hk with rfl | hk
          · exact g1
          · exact a1 k hk, a2⟩
      · cases h
    · simp

theorem AllPlain.plainDir {F : Type} {d : Dir F} (h : AllPlain d) : PlainDir d where
  names := fun _ _ he => (h.entry he).1
  targets := fun p e t he ht => (h.entry he).2 t (by
    obtain ⟨md, o⟩ := e
    rcases o with _ | _ | _ | _ <;> simp_all [Told.ofEntry])

end Text

end Backpak
