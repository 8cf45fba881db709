import Verif.Model.Cache

/-!
# C46 - The cache stays within its size limit and evicts the oldest
-/

namespace Backpak.C46

open Backed

/-- The sizes of rows, added up. -/
def total (l : List Row) : Nat := (l.map Row.size).sum

/-- What the loop finds: the shortest start of the list with at least the limit. -/
theorem scan_some {limit : Nat} : ∀ {l : List Row} {acc : Nat} {last last' : Option Int} {rest : List Row},
    scan limit acc last l = some (last', rest) →
    ∃ kept, l = kept ++ rest ∧ limit ≤ acc + total kept ∧
      ((kept = [] ∧ last' = last) ∨
        ∃ kept' r, kept = kept' ++ [r] ∧ last' = some r.time ∧ acc + total kept' < limit) := by
  intro l
  induction l with
  | nil =>
    intro acc last last' rest h
    unfold scan at h
    split at h
    · cases h
    · cases h
      exact ⟨[], rfl, by simp [total]; omega, .inl ⟨rfl, rfl⟩⟩
  | cons r l ih =>
    intro acc last last' rest h
    unfold scan at h
    split at h
    · rename_i hlt
      obtain ⟨kept, h1, h2, h3⟩ := ih h
      refine ⟨r :: kept, by rw [h1]; rfl, by simp [total] at h2 ⊢; omega, .inr ?_⟩
      rcases h3 with ⟨rfl, rfl⟩ | ⟨kept', r', rfl, rfl, h5⟩
      · exact ⟨[], r, rfl, rfl, by simpa [total] using hlt⟩
      · exact ⟨r :: kept', r', rfl, rfl, by simp [total] at h5 ⊢; omega⟩
    · cases h
      exact ⟨[], rfl, by simp [total]; omega, .inl ⟨rfl, rfl⟩⟩

theorem scan_none {limit : Nat} : ∀ {l : List Row} {acc : Nat} {last : Option Int},
    scan limit acc last l = none → acc + total l < limit := by
  intro l
  induction l with
  | nil =>
    intro acc last h
    unfold scan at h
    split at h
    · simpa [total]
    · cases h
  | cons r l ih =>
    intro acc last h
    unfold scan at h
    split at h
    · have := ih h
      simp [total] at this ⊢
      omega
    · cases h

/-- Steps that take files away. -/
theorem acts_unkeep (l : List Row) (s : Backed) :
    (acts (l.map (fun r => Act.unkeep r.name)) s).store = s.store ∧
    (acts (l.map (fun r => Act.unkeep r.name)) s).cache.rows = s.cache.rows ∧
    (acts (l.map (fun r => Act.unkeep r.name)) s).cache.limit = s.cache.limit ∧
    ∀ n, (acts (l.map (fun r => Act.unkeep r.name)) s).cache.files n =
      if n ∈ l.map Row.name then none else s.cache.files n := by
  induction l generalizing s with
  | nil => simp [acts]
  | cons r l ih =>
    obtain ⟨h1, h2, h3, h4⟩ := ih (act (.unkeep r.name) s)
    have e : acts ((r :: l).map (fun r => Act.unkeep r.name)) s =
        acts (l.map (fun r => Act.unkeep r.name)) (act (.unkeep r.name) s) := rfl
    rw [e]
    refine ⟨h1, h2, h3, fun n => ?_⟩
    rw [h4]
    simp only [act, setAt, List.map_cons, List.mem_cons]
    by_cases hn : n = r.name
    · simp [hn]
    · simp [hn]

theorem acts_append (l l' : List Act) (s : Backed) : acts (l ++ l') s = acts l' (acts l s) := by
  simp [acts, List.foldl_append]

/-- Pruning a cache with a limit, whose entries were all last used at different times: there is a time
such that the entries used then or later are kept, row and file, and the others have neither; the kept
ones but the oldest have less than the limit; and if any is dropped, the kept ones have at least the
limit, so no more than necessary is dropped. -/
theorem prunes {s : Backed} {l : List Row} (hl : Latest s.cache l) (hd : (l.map Row.time).Nodup)
    (hlim : s.cache.limit ≠ 0) :
    ∃ kept dropped, l = kept ++ dropped ∧
      (∀ a ∈ kept, ∀ b ∈ dropped, b.time < a.time) ∧
      (∃ oldest, total kept - oldest < s.cache.limit ∧ (oldest = 0 ∨ ∃ r ∈ kept, oldest = r.size)) ∧
      (dropped ≠ [] → s.cache.limit ≤ total kept) ∧
      (pruneActs s.cache.limit l).2 = none ∧
      (∀ r ∈ kept, (acts (pruneActs s.cache.limit l).1 s).cache.rows r.name = some (r.time, r.size) ∧
        (acts (pruneActs s.cache.limit l).1 s).cache.files r.name = s.cache.files r.name) ∧
      (∀ r ∈ dropped, (acts (pruneActs s.cache.limit l).1 s).cache.rows r.name = none ∧
        (acts (pruneActs s.cache.limit l).1 s).cache.files r.name = none) ∧
      (∀ n, s.cache.rows n = none → (acts (pruneActs s.cache.limit l).1 s).cache.rows n = none ∧
        (acts (pruneActs s.cache.limit l).1 s).cache.files n = s.cache.files n) ∧
      (acts (pruneActs s.cache.limit l).1 s).store = s.store := by
  have hstrict : l.Pairwise (fun a b => b.time < a.time) := by
    have h2 : l.Pairwise (fun a b => a.time ≠ b.time) := List.pairwise_map.mp hd
    refine (hl.order.and h2).imp ?_
    intro a b h
    exact lt_of_le_of_ne h.1 (Ne.symm h.2)
  unfold pruneActs
  cases hs : scan s.cache.limit 0 none l with
  | none =>
    have := scan_none hs
    rw [Nat.zero_add] at this
    refine ⟨l, [], by simp, by simp, ⟨0, by omega, .inl rfl⟩, by simp, rfl, ?_, by simp, fun n hn => ⟨hn, rfl⟩, rfl⟩
    intro r hr
    exact ⟨(hl.rows r).mp hr, rfl⟩
  | some p =>
    obtain ⟨last, rest⟩ := p
    obtain ⟨kept, h1, h2, h3⟩ := scan_some hs
    rw [Nat.zero_add] at h2
    rcases h3 with ⟨rfl, rfl⟩ | ⟨kept', o, rfl, rfl, h5⟩
    · simp [total] at h2; exact absurd h2 hlim
    · have hap : ∀ a ∈ kept' ++ [o], ∀ b ∈ rest, b.time < a.time := by
        rw [h1, List.pairwise_append] at hstrict
        exact hstrict.2.2
      have hold : ∀ a ∈ kept', o.time < a.time := by
        rw [h1, List.pairwise_append, List.pairwise_append] at hstrict
        exact fun a ha => hstrict.1.2.2 a ha o (by simp)
      dsimp only
      obtain ⟨g1, g2, g3, g4⟩ := acts_unkeep rest s
      rw [acts_append]
      set s1 := acts (rest.map (fun r => Act.unkeep r.name)) s with hs1
      have hrows : ∀ n, (acts [.unrowBefore o.time] s1).cache.rows n = match s.cache.rows n with
          | none => none
          | some (t, k) => if t < o.time then none else some (t, k) := by
        intro n
        show (match s1.cache.rows n with
          | none => none
          | some (t, k) => if t < o.time then none else some (t, k)) = _
        rw [g2]
      have hfiles : ∀ n, (acts [.unrowBefore o.time] s1).cache.files n = s1.cache.files n := fun n => rfl
      refine ⟨kept' ++ [o], rest, h1, hap, ⟨o.size, ?_, .inr ⟨o, by simp, rfl⟩⟩, fun _ => h2, rfl, ?_, ?_, ?_, ?_⟩
      · simp [total] at h5 ⊢
        omega
      · intro r hr
        have hm : r ∈ l := by rw [h1]; exact List.mem_append_left _ hr
        have hrow := (hl.rows r).mp hm
        rw [hrows, hrow, hfiles, g4, if_neg]
        · refine ⟨?_, rfl⟩
          dsimp only
          rw [if_neg]
          rcases List.mem_append.mp hr with hr | hr
          · exact not_lt.mpr (le_of_lt (hold r hr))
          · rw [List.mem_singleton.mp hr]; exact lt_irrefl _
        · intro hmem
          obtain ⟨b, hb, hbn⟩ := List.mem_map.mp hmem
          have hbm : b ∈ l := by rw [h1]; exact List.mem_append_right _ hb
          have := (hl.rows b).mp hbm
          rw [hbn, hrow] at this
          have := hap r hr b hb
          simp_all
      · intro r hr
        have hm : r ∈ l := by rw [h1]; exact List.mem_append_right _ hr
        have hrow := (hl.rows r).mp hm
        rw [hrows, hrow, hfiles, g4, if_pos (List.mem_map.mpr ⟨r, hr, rfl⟩)]
        refine ⟨?_, rfl⟩
        dsimp only
        rw [if_pos (hap o (by simp) r hr)]
      · intro n hn
        rw [hrows, hn, hfiles, g4, if_neg]
        · exact ⟨rfl, rfl⟩
        · intro hmem
          obtain ⟨b, hb, hbn⟩ := List.mem_map.mp hmem
          have := (hl.rows b).mp (by rw [h1]; exact List.mem_append_right _ hb)
          rw [hbn, hn] at this
          cases this
      · exact g1

/-- With a limit of nothing, pruning fails, having deleted every file that has a row but none of the
rows. -/
theorem no_limit {s : Backed} {l : List Row} (hlim : s.cache.limit = 0) :
    (pruneActs s.cache.limit l).2 = some (.err "Absurd: zero-size cache") ∧
    (acts (pruneActs s.cache.limit l).1 s).cache.rows = s.cache.rows ∧
    ∀ r ∈ l, (acts (pruneActs s.cache.limit l).1 s).cache.files r.name = none := by
  have : scan s.cache.limit 0 none l = some (none, l) := by
    cases l <;> simp [scan, hlim]
  obtain ⟨_, g2, _, g4⟩ := acts_unkeep l s
  simp only [pruneActs, this]
  refine ⟨trivial, g2, fun r hr => ?_⟩
  rw [g4, if_pos (List.mem_map.mpr ⟨r, hr, rfl⟩)]

/-! ## Examples -/

def rowsE : List Row := [⟨[99], 3, 2⟩, ⟨[98], 2, 2⟩, ⟨[97], 1, 2⟩]

def cacheOf (l : List Row) (limit : Nat) : Backed :=
  ⟨⟨fun n => if n ∈ l.map Row.name then some [0, 0] else none,
    fun n => (l.find? (fun r => r.name = n)).map (fun r => (r.time, r.size)), limit⟩, fun _ => none⟩

theorem latest_of {l : List Row} {limit : Nat} (hn : (l.map Row.name).Nodup)
    (ho : l.Pairwise (fun a b => b.time ≤ a.time)) : Latest (cacheOf l limit).cache l := by
  refine ⟨?_, hn, ho⟩
  intro r
  simp only [cacheOf]
  rw [Option.map_eq_some_iff]
  constructor
  · intro hr
    refine ⟨r, ?_, rfl⟩
    clear ho
    induction l with
    | nil => cases hr
    | cons a l ih =>
      rw [List.map_cons, List.nodup_cons] at hn
      rw [List.find?_cons]
      rcases List.mem_cons.mp hr with rfl | hr
      · simp
      · have : ¬ a.name = r.name := fun e => hn.1 (by rw [e]; exact List.mem_map.mpr ⟨r, hr, rfl⟩)
        simp only [this, decide_false]
        exact ih hn.2 hr
  · rintro ⟨b, hb, he⟩
    have h1 := List.mem_of_find?_eq_some hb
    have h2 := List.find?_some hb
    simp only [decide_eq_true_eq] at h2
    obtain ⟨n, t, k⟩ := r
    obtain ⟨n', t', k'⟩ := b
    cases he
    cases h2
    exact h1

/-- Three entries of two bytes with a limit of three: the oldest goes. -/
example : Latest (cacheOf rowsE 3).cache rowsE ∧ (rowsE.map Row.time).Nodup ∧ (cacheOf rowsE 3).cache.limit ≠ 0 ∧
    ((acts (pruneActs 3 rowsE).1 (cacheOf rowsE 3)).cache.rows [97] = none) ∧
    ((acts (pruneActs 3 rowsE).1 (cacheOf rowsE 3)).cache.files [98] = some [0, 0]) :=
  ⟨latest_of (by decide) (by decide), by decide, by decide, by decide, by decide⟩

/-- The times must differ: of two entries last used at the same time, one is deleted but keeps its
row, which counts against the limit from then on. -/
theorem ties_keep_rows : ∃ (s : Backed) (l : List Row), Latest s.cache l ∧ s.cache.limit = 1 ∧
    (acts (pruneActs s.cache.limit l).1 s).cache.files [97] = none ∧
    (acts (pruneActs s.cache.limit l).1 s).cache.rows [97] = some (1, 2) :=
  ⟨cacheOf [⟨[98], 1, 2⟩, ⟨[97], 1, 2⟩] 1, [⟨[98], 1, 2⟩, ⟨[97], 1, 2⟩], latest_of (by decide) (by decide), rfl,
    by decide, by decide⟩

/-- The limit is not kept exactly: the entry that reaches it is kept, however large. -/
theorem over_limit (k : Nat) : ∃ (s : Backed) (l : List Row), Latest s.cache l ∧ s.cache.limit = 1 ∧
    (acts (pruneActs s.cache.limit l).1 s).cache.rows [97] = some (1, k + 1) := by
  refine ⟨cacheOf [⟨[97], 1, k + 1⟩] 1, [⟨[97], 1, k + 1⟩], latest_of (by simp) (by simp), rfl, ?_⟩
  have : scan 1 0 none [⟨[97], 1, k + 1⟩] = some (some 1, []) := by
    simp [scan]
  have h : (cacheOf [⟨[97], 1, k + 1⟩] 1).cache.limit = 1 := rfl
  rw [h]
  simp only [pruneActs, this]
  simp [acts, act, cacheOf]

end Backpak.C46
