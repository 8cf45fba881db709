import Verif.Model.B2

/-!
# C51. B2 listings are complete and uploads carry their hash
-/

namespace Backpak.C51

open B2

/-- However the service cuts the listing into pages, `list` returns every uploaded file with the prefix, once,
in order of name. -/
theorem lists_all (B : BMap Name Item) (pre : Name) (ask : Nat → Option Name → Except Unit Answer)
    (hask : ∀ i s, ∃ a, ask i s = .ok a ∧ Page B pre s a) (fuel : Nat) (hf : B.length < fuel) :
    list ask fuel = some (.ok (uploads (B.filter fun e => pre.isPrefixOf e.1))) := by
  have hu : ∀ a b, uploads (a ++ b) = uploads a ++ uploads b := by simp [uploads]
  have key : ∀ fuel i start fs, (showing B pre start).length < fuel →
      listLoop ask fuel i start fs = some (.ok (fs ++ uploads (showing B pre start))) := by
    intro fuel
    induction fuel with
    | zero => intro i start fs h; omega
    | succ fuel ih =>
      intro i start fs h
      obtain ⟨⟨page, next⟩, ha, rest, h1, h2, h3⟩ := hask i start
      unfold listLoop
      rw [ha]
      dsimp only at h1 h2 h3 ⊢
      cases next with
      | none => rw [h1, h2 rfl, List.append_nil]
      | some n =>
        obtain ⟨h4, h5, _⟩ := h3 n rfl
        have hl := congrArg List.length h1
        rw [List.length_append] at hl
        have : 0 < page.length := List.length_pos_of_ne_nil h4
        dsimp only
        rw [ih, h1, hu, ← h5, List.append_assoc]
        rw [← h5]; omega
  have hs : showing B pre none = B.filter fun e => pre.isPrefixOf e.1 := by
    simp only [showing, Bool.and_true]
  have := key fuel 0 none [] (by rw [hs]; exact lt_of_le_of_lt (List.length_filter_le _ _) hf)
  rw [hs, List.nil_append] at this
  exact this

/-- While others change the bucket, a listing still has every file that is there all the time, and only files
that were there at some time. -/
theorem lists_while_changing (B : Nat → BMap Name Item) (pre : Name)
    (ask : Nat → Option Name → Except Unit Answer) (hask : ∀ i s a, ask i s = .ok a → Page (B i) pre s a)
    (fuel : Nat) (l : List (Name × Nat)) (hl : list ask fuel = some (.ok l)) :
    (∀ n k, (∀ i, (n, ⟨.upload, some k⟩) ∈ B i) → pre <+: n → (n, k) ∈ l) ∧
    (∀ n k, (n, k) ∈ l → pre <+: n ∧ ∃ i, (n, ⟨.upload, some k⟩) ∈ B i) := by
  have mem : ∀ (p : List (Name × Item)) n k, (n, k) ∈ uploads p ↔ (n, ⟨.upload, some k⟩) ∈ p := by
    intro p n k
    simp only [uploads, List.mem_filterMap, List.mem_filter, decide_eq_true_eq, Option.map_eq_some_iff,
      Prod.mk.injEq]
    constructor
    · rintro ⟨⟨m, act, len⟩, ⟨h1, h2⟩, k', h3, h4, h5⟩
      dsimp only at h2 h3 h4
      subst h2 h3 h4 h5
      exact h1
    · intro h
      exact ⟨_, ⟨h, rfl⟩, k, rfl, rfl, rfl⟩
  have shown : ∀ (B : BMap Name Item) s n it, (n, it) ∈ showing B pre s ↔
      (n, it) ∈ B ∧ pre <+: n ∧ ∀ a, s = some a → a ≤ n := by
    intro B s n it
    simp only [showing, List.mem_filter, Bool.and_eq_true, List.isPrefixOf_iff_prefix]
    cases s <;> simp
  have key : ∀ fuel i start fs l, listLoop ask fuel i start fs = some (.ok l) →
      (∀ e ∈ fs, e ∈ l) ∧
      (∀ n k, (∀ i, (n, ⟨.upload, some k⟩) ∈ B i) → pre <+: n → (∀ a, start = some a → a ≤ n) → (n, k) ∈ l) ∧
      (∀ n k, (n, k) ∈ l → (n, k) ∈ fs ∨ pre <+: n ∧ ∃ i, (n, ⟨.upload, some k⟩) ∈ B i) := by
    intro fuel
    induction fuel with
    | zero => intro i start fs l h; simp [listLoop] at h
    | succ fuel ih =>
      intro i start fs l h
      unfold listLoop at h
      split at h
      · simp at h
      · rename_i page next ha
        obtain ⟨rest, h1, h2, h3⟩ := hask i start _ ha
        dsimp only at h1 h2 h3
        have hpage : ∀ n k, (n, k) ∈ uploads page → pre <+: n ∧ ∃ i, (n, ⟨.upload, some k⟩) ∈ B i := by
          intro n k hk
          have : (n, (⟨.upload, some k⟩ : Item)) ∈ showing (B i) pre start := by
            rw [h1]; exact List.mem_append_left _ ((mem _ _ _).mp hk)
          have := (shown _ _ _ _).mp this
          exact ⟨this.2.1, i, this.1⟩
        split at h
        · simp only [Option.some.injEq, Except.ok.injEq] at h
          subst h
          refine ⟨fun e he => List.mem_append_left _ he, fun n k hn hp hs => ?_, fun n k hk => ?_⟩
          · have := (shown (B i) start n _).mpr ⟨hn i, hp, hs⟩
            rw [h1, h2 rfl, List.append_nil] at this
            exact List.mem_append_right _ ((mem _ _ _).mpr this)
          · rcases List.mem_append.mp hk with hk | hk
            · exact .inl hk
            · exact .inr (hpage n k hk)
        · rename_i nx
          obtain ⟨a1, a2, a3⟩ := ih _ _ _ _ h
          obtain ⟨_, h5, _⟩ := h3 nx rfl
          refine ⟨fun e he => a1 e (List.mem_append_left _ he), fun n k hn hp hs => ?_, fun n k hk => ?_⟩
          · have := (shown (B i) start n _).mpr ⟨hn i, hp, hs⟩
            rw [h1] at this
            rcases List.mem_append.mp this with h | h
            · exact a1 _ (List.mem_append_right _ ((mem _ _ _).mpr h))
            · rw [h5] at h
              exact a2 n k hn hp ((shown _ _ _ _).mp h).2.2
          · rcases a3 n k hk with h | h
            · rcases List.mem_append.mp h with h | h
              · exact .inl h
              · exact .inr (hpage n k h)
            · exact .inr h
  obtain ⟨_, h2, h3⟩ := key fuel 0 none [] l hl
  refine ⟨fun n k hn hp => h2 n k hn hp (by simp), fun n k hk => ?_⟩
  rcases h3 n k hk with h | h
  · simp at h
  · exact h

/-- Four files and a hidden one, two with the prefix on each page of two. -/
def bucket : BMap Name Item :=
  [([97, 1], ⟨.upload, some 5⟩), ([97, 2], ⟨.upload, some 6⟩), ([97, 3], ⟨.hide, none⟩),
   ([97, 4], ⟨.upload, some 7⟩), ([98], ⟨.upload, some 8⟩)]

/-- A service with pages of two. -/
def twos (_ : Nat) (s : Option Name) : Except Unit Answer :=
  let l := showing bucket [97] s
  .ok (l.take 2, (l.drop 2).head?.map Prod.fst)

example : list twos 6 = some (.ok [([97, 1], 5), ([97, 2], 6), ([97, 4], 7)]) := by decide +kernel

variable (sha : Bytes → Bytes)

/-- What is still to come out of the body. -/
def toCome : Body → Bytes
  | .contents rest hashed => rest ++ sha (hashed ++ rest)
  | .suffix left => left

theorem read_step (b : Body) (n k : Nat) (hn : 0 < n) :
    (b.read sha n k).1 ++ toCome sha (b.read sha n k).2 = toCome sha b ∧
    (b.read sha n k).1.length ≤ n ∧ ((b.read sha n k).1 = [] → toCome sha b = []) := by
  cases b with
  | suffix left =>
    refine ⟨List.take_append_drop _ _, by simp [Body.read], fun h => ?_⟩
    simp only [Body.read, List.take_eq_nil_iff] at h
    rcases h with h | h
    · omega
    · exact h
  | contents rest hashed =>
    simp only [Body.read]
    split
    · rename_i h
      refine ⟨?_, ?_, ?_⟩
      · simp only [toCome]
        rw [List.append_assoc, List.take_append_drop, ← List.append_assoc, List.take_append_drop]
      · simp only [List.length_take]; omega
      · intro h0
        dsimp only at h0
        rw [h0] at h
        simp at h
    · rename_i h
      have hr : rest = [] := by
        by_contra hne
        have := List.length_pos_of_ne_nil hne
        simp only [List.length_take] at h
        omega
      subst hr
      refine ⟨?_, by simp, ?_⟩
      · simp [toCome]
      · intro h0
        simp only [List.take_eq_nil_iff] at h0
        rcases h0 with h0 | h0
        · omega
        · simp [toCome, h0]

/-- However large the buffers are (but not empty) and however little the reader gives at a time: what has been
read and what is to come make up the contents followed by their digest; and a read comes back empty only when
everything has been read. -/
theorem body_is (x : Bytes) (l : List (Nat × Nat)) (hl : ∀ e ∈ l, 0 < e.1) :
    (Body.reads sha l (.contents x [])).1 ++ toCome sha (Body.reads sha l (.contents x [])).2 = x ++ sha x ∧
    ∀ n k, 0 < n → ((Body.reads sha l (.contents x [])).2.read sha n k).1 = [] →
      (Body.reads sha l (.contents x [])).1 = x ++ sha x := by
  have key : ∀ (l : List (Nat × Nat)) (b : Body), (∀ e ∈ l, 0 < e.1) →
      (Body.reads sha l b).1 ++ toCome sha (Body.reads sha l b).2 = toCome sha b := by
    intro l
    induction l with
    | nil => intro b _; rfl
    | cons e l ih =>
      intro b h
      obtain ⟨n, k⟩ := e
      simp only [Body.reads]
      rw [List.append_assoc, ih _ (fun e he => h e (List.mem_cons_of_mem _ he))]
      exact (read_step sha b n k (h (n, k) List.mem_cons_self)).1
  have h := key l (.contents x []) hl
  have h0 : toCome sha (.contents x []) = x ++ sha x := rfl
  rw [h0] at h
  refine ⟨h, fun n k hn he => ?_⟩
  have := (read_step sha _ n k hn).2.2 he
  rw [this, List.append_nil] at h
  exact h

/-- A digest for examples: 40 bytes that depend on the contents. -/
def toySha (x : Bytes) : Bytes := (x ++ List.replicate 40 (UInt8.ofNat x.length)).take 40

theorem toySha_length (x : Bytes) : (toySha x).length = 40 := by simp [toySha]

example : (Body.reads toySha [(2, 1), (2, 5), (3, 0), (30, 9), (30, 1)] (.contents [7, 8, 9] [])).1 =
    [7, 8, 9] ++ toySha [7, 8, 9] := by decide +kernel

/-- An empty buffer is taken for the end of the contents: the body goes on with a digest that is right for the
part read so far. -/
theorem empty_buffer : (Body.reads toySha [(1, 1), (0, 1), (100, 1)] (.contents [7, 8] [])).1 =
    [7] ++ toySha [7] := by decide +kernel

/-- What `put` stores is what the service accepts of the first `len + 40` bytes of the body. -/
theorem put_accepts (len : Nat) (net : Net) (rest y : Bytes) (hnet : ∀ k, net ≠ .cut k) :
    (put sha len net rest).2.1 = some y ↔ Accepts sha (len + 40) ((rest ++ sha rest).take (len + 40)) y := by
  have h : (put sha len net rest).2.1 =
      if ((rest ++ sha rest).take (len + 40)).length = len + 40 ∧
        ((rest ++ sha rest).take (len + 40)).drop len = sha (((rest ++ sha rest).take (len + 40)).take len)
      then some (((rest ++ sha rest).take (len + 40)).take len) else none := by
    cases net with
    | cut k => exact absurd rfl (hnet k)
    | fine => rfl
    | lost => rfl
  rw [h]
  unfold Accepts
  rw [Nat.add_sub_cancel]
  constructor
  · intro h
    split at h
    · rename_i hc
      simp only [Option.some.injEq] at h
      exact ⟨hc.1, by omega, h.symm, by rw [hc.2, h]⟩
    · simp at h
  · rintro ⟨h1, _, rfl, h3⟩
    rw [if_pos ⟨h1, h3⟩]

/-- With the right length, an upload that nothing goes wrong with succeeds, and one that succeeds has stored
exactly the contents. -/
theorem put_stores (hsha : ∀ x, (sha x).length = 40) (x : Bytes) (net : Net) :
    put sha x.length .fine x = (true, some x, []) ∧
    ((put sha x.length net x).1 = true → (put sha x.length net x).2.1 = some x) ∧
    (∀ y, (put sha x.length net x).2.1 = some y → y = x) := by
  have hb : (x ++ sha x).take (x.length + 40) = x ++ sha x :=
    List.take_of_length_le (by simp [hsha])
  have h1 : put sha x.length .fine x = (true, some x, []) := by
    simp [put, hb, hsha]
  have h2 : put sha x.length .lost x = (false, some x, []) := by
    simp [put, hb, hsha]
  refine ⟨h1, ?_, ?_⟩
  · cases net with
    | fine => rw [h1]; simp
    | lost => rw [h2]; simp
    | cut k => simp [put]
  · cases net with
    | fine => rw [h1]; simp
    | lost => rw [h2]; simp
    | cut k => simp [put]

/-- Whatever length is declared, what is stored has that length and begins the contents. -/
theorem put_never_pads (hsha : ∀ x, (sha x).length = 40) (len : Nat) (net : Net) (rest y : Bytes)
    (h : (put sha len net rest).2.1 = some y) : y.length = len ∧ y <+: rest ∧ (y ++ sha y) <+: (rest ++ sha rest) := by
  have hnet : ∀ k, net ≠ .cut k := by rintro k rfl; simp [put] at h
  obtain ⟨h1, _, h3, h4⟩ := (put_accepts sha len net rest y hnet).mp h
  rw [Nat.add_sub_cancel] at h3 h4
  have hlen := h1
  rw [List.length_take, List.length_append, hsha] at hlen
  have hle : len ≤ rest.length := by omega
  have hy : y.length = len := by rw [h3, List.length_take, h1]; omega
  refine ⟨hy, ?_, ?_⟩
  · rw [h3, List.take_take, Nat.min_eq_left (by omega), List.take_append_of_le_length hle]
    exact List.take_prefix _ _
  · have : y ++ sha y = (rest ++ sha rest).take (len + 40) := by
      rw [← h4]
      conv_lhs => rw [h3]
      exact List.take_append_drop _ _
    rw [this]
    exact List.take_prefix _ _

end Backpak.C51
