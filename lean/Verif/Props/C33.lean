import Verif.Lemmas.Source
import Verif.Model.ChunkCache
import Mathlib.Order.Monotone.Basic
import Mathlib.Algebra.BigOperators.Group.List.Basic

/-!
# C33 - Chunk reads are right whatever is cached
-/

namespace Backpak.C33

open Spec

variable {Id : Type} [LinearOrder Id] {C : Codec Id} {R : Repo Id} {src : Source Id}
  {env : CacheEnv Id}

/-- The heap pops an entry with the oldest stamp, and the clock's readings increase. -/
structure EnvOk (env : CacheEnv Id) : Prop where
  pick : ∀ l : List (Cached Id), l ≠ [] → ∃ e, l[env.pick l]? = some e ∧ ∀ e' ∈ l, e.stamp ≤ e'.stamp
  clock : StrictMono env.clock

/-- Bytes held. -/
def held (l : List (Cached Id)) : Nat := (l.map (fun e => e.chunk.length)).sum

/-- The content size of some listed pack, or zero. -/
def SomePackSize (R : Repo Id) (n : Nat) : Prop :=
  n = 0 ∨ ∃ p bs, Listed R.indexes p (Pack.manifestOf bs) ∧ (p, bs) ∈ R.packs ∧
    n = (bs.map fun b => b.data.length).sum

/-- A reader whose cache is in order: cached chunks are stored chunks, the books balance and
nothing is newer than the clock. -/
structure ReaderOk (C : Codec Id) (R : Repo Id) (env : CacheEnv Id) (s : ReaderState Id) : Prop where
  nodup : (s.entries.map Cached.id).Nodup
  stored : ∀ e ∈ s.entries, Has C R ⟨e.chunk, e.id, .chunk⟩
  used : s.used = held s.entries
  past : ∀ e ∈ s.entries, e.stamp < env.clock s.tick

/-- What holds between reads. -/
structure Settled (C : Codec Id) (R : Repo Id) (env : CacheEnv Id) (s : ReaderState Id) : Prop
    extends ReaderOk C R env s where
  small : s.used ≤ 2 * s.biggest
  size : SomePackSize R s.biggest

theorem settled_new : Settled C R env ReaderState.new :=
  ⟨⟨by simp [ReaderState.new], by simp [ReaderState.new], rfl, by simp [ReaderState.new]⟩,
    by simp [ReaderState.new], .inl rfl⟩

theorem touch_ids (id : Id) (now : Nat) (l : List (Cached Id)) :
    (touch id now l).map Cached.id = l.map Cached.id := by
  unfold touch
  rw [List.map_map]
  apply List.map_congr_left
  intro e _
  simp only [Function.comp]
  split <;> rfl

theorem touch_chunks (id : Id) (now : Nat) (l : List (Cached Id)) :
    (touch id now l).map (fun e => e.chunk.length) = l.map (fun e => e.chunk.length) := by
  unfold touch
  rw [List.map_map]
  apply List.map_congr_left
  intro e _
  simp only [Function.comp]
  split <;> rfl

theorem mem_touch {id : Id} {now : Nat} {l : List (Cached Id)} {e : Cached Id}
    (h : e ∈ touch id now l) : ∃ e' ∈ l, e.id = e'.id ∧ e.chunk = e'.chunk ∧
      ((e'.id = id ∧ e.stamp = now) ∨ (e'.id ≠ id ∧ e.stamp = e'.stamp)) := by
  obtain ⟨e', h1, rfl⟩ := List.mem_map.mp h
  refine ⟨e', h1, ?_⟩
  by_cases hid : e'.id = id
  · simp [hid]
  · simp [hid]

theorem readerOk_touch (hc : StrictMono env.clock) {s : ReaderState Id} (h : ReaderOk C R env s) (id : Id) :
    ReaderOk C R env
      { s with entries := touch id (env.clock s.tick) s.entries, tick := s.tick + 1 } := by
  have hlt : env.clock s.tick < env.clock (s.tick + 1) := hc (Nat.lt_succ_self _)
  refine ⟨?_, ?_, ?_, ?_⟩
  · simp only [touch_ids]; exact h.nodup
  · intro e he
    obtain ⟨e', h1, h2, h3, _⟩ := mem_touch he
    rw [h2, h3]
    exact h.stored e' h1
  · simp only [held, touch_chunks]; exact h.used
  · intro e he
    obtain ⟨e', h1, _, _, ⟨_, h4⟩ | ⟨_, h4⟩⟩ := mem_touch he
    · rw [h4]; exact hlt
    · rw [h4]; exact lt_trans (h.past e' h1) hlt

theorem find_some {l : List (Cached Id)} {id : Id} {e : Cached Id}
    (h : l.find? (fun e => e.id = id) = some e) : e ∈ l ∧ e.id = id := by
  refine ⟨List.mem_of_find?_eq_some h, ?_⟩
  have := List.find?_some h
  simpa using this

theorem find_none {l : List (Cached Id)} {id : Id}
    (h : l.find? (fun e => e.id = id) = none) : id ∉ l.map Cached.id := by
  intro hm
  obtain ⟨e, he, hid⟩ := List.mem_map.mp hm
  have := List.find?_eq_none.mp h e he
  simp [hid] at this

/-- A hit returns the stored bytes. -/
theorem cacheGet_hit (hc : StrictMono env.clock) (hS : Sound C R) {s : ReaderState Id}
    (h : ReaderOk C R env s) {id : Id} {x : Bytes} (hx : Has C R ⟨x, id, .chunk⟩)
    {y : Bytes} {s' : ReaderState Id} (hg : cacheGet env s id = some (y, s')) :
    y = x ∧ ReaderOk C R env s' ∧ s'.used = s.used ∧ s'.biggest = s.biggest := by
  unfold cacheGet at hg
  split at hg
  · simp at hg
  · rename_i e he
    obtain ⟨h1, h2⟩ := find_some he
    simp only [Option.some.injEq, Prod.mk.injEq] at hg
    obtain ⟨rfl, rfl⟩ := hg
    refine ⟨?_, readerOk_touch hc h id, rfl, rfl⟩
    have := hS.has_one (h.stored e h1) hx h2
    simpa using congrArg Blob.data this

/-- The entries that carry a stamp of at least `n`. -/
def fresh (n : Nat) (l : List (Cached Id)) : List (Cached Id) := l.filter (fun e => n ≤ e.stamp)

theorem held_fresh_add (n : Nat) (l : List (Cached Id)) :
    held l = held (fresh n l) + held (l.filter (fun e => ¬ n ≤ e.stamp)) := by
  unfold held fresh
  induction l with
  | nil => rfl
  | cons e l ih =>
    by_cases h : n ≤ e.stamp
    · simp [h, ih]; omega
    · simp only [List.map_cons, List.sum_cons, ih, h, decide_false, Bool.false_eq_true,
        not_false_eq_true, List.filter_cons_of_neg, decide_true, List.filter_cons_of_pos]
      omega

/-- Inserting a pack's chunks: exactly they carry new stamps. -/
theorem insert_all (hc : StrictMono env.clock) (hS : Sound C R) (n : Nat) (l : List (Id × Bytes)) :
    ∀ (s : ReaderState Id) (done : List (Id × Bytes)), ReaderOk C R env s →
    (∀ c ∈ l, Has C R ⟨c.2, c.1, .chunk⟩) → n ≤ s.tick →
    (∀ e ∈ s.entries, env.clock n ≤ e.stamp → (e.id, e.chunk) ∈ done) →
    (∀ c ∈ done, ∃ e ∈ s.entries, e.id = c.1 ∧ env.clock n ≤ e.stamp) →
    let s' := l.foldl (fun s c => cacheInsert env s c.1 c.2) s
    ReaderOk C R env s' ∧ s'.biggest = s.biggest ∧
      (∀ e ∈ s'.entries, env.clock n ≤ e.stamp → (e.id, e.chunk) ∈ done ++ l) ∧
      (∀ c ∈ done ++ l, ∃ e ∈ s'.entries, e.id = c.1 ∧ env.clock n ≤ e.stamp) := by
  induction l with
  | nil =>
    intro s done h _ _ hd hd'
    simp only [List.foldl_nil, List.append_nil]
    exact ⟨h, trivial, hd, hd'⟩
  | cons c l ih =>
    intro s done h hl hn hd hd'
    have hlt : env.clock s.tick < env.clock (s.tick + 1) := hc (Nat.lt_succ_self _)
    have hnow : env.clock n ≤ env.clock s.tick := hc.monotone hn
    have hcs := hl c (by simp)
    have key : ReaderOk C R env (cacheInsert env s c.1 c.2) ∧
        (cacheInsert env s c.1 c.2).biggest = s.biggest ∧
        n ≤ (cacheInsert env s c.1 c.2).tick ∧
        (∀ e ∈ (cacheInsert env s c.1 c.2).entries, env.clock n ≤ e.stamp →
          (e.id, e.chunk) ∈ done ++ [c]) ∧
        (∀ d ∈ done ++ [c], ∃ e ∈ (cacheInsert env s c.1 c.2).entries,
          e.id = d.1 ∧ env.clock n ≤ e.stamp) := by
      unfold cacheInsert
      split
      · rename_i hsome
        obtain ⟨e0, he0⟩ := Option.isSome_iff_exists.mp hsome
        obtain ⟨hm0, hid0⟩ := find_some he0
        refine ⟨readerOk_touch hc h c.1, by simp, by simp only; omega, ?_, ?_⟩
        · intro e he hst
          obtain ⟨e', h1, h2, h3, ⟨h4, _⟩ | ⟨_, h5⟩⟩ := mem_touch he
          · have := hS.has_one (h.stored e' h1) hcs h4
            simp only [Blob.mk.injEq, and_true] at this
            rw [h2, h3, h4, this.1]
            simp
          · rw [h2, h3]
            exact List.mem_append_left _ (hd e' h1 (h5 ▸ hst))
        · intro d hdm
          have htouch : ∀ e ∈ s.entries, ∃ e' ∈ touch c.1 (env.clock s.tick) s.entries,
              e'.id = e.id ∧ (e.id = c.1 → e'.stamp = env.clock s.tick) ∧
              (e.id ≠ c.1 → e'.stamp = e.stamp) := by
            intro e he
            refine ⟨_, List.mem_map.mpr ⟨e, he, rfl⟩, ?_, ?_, ?_⟩
            · split <;> rfl
            · intro hh; rw [if_pos hh]
            · intro hh; rw [if_neg hh]
          rcases List.mem_append.mp hdm with hdm | hdm
          · obtain ⟨e, he, h1, h2⟩ := hd' d hdm
            obtain ⟨e', he', h3, h4, h5⟩ := htouch e he
            refine ⟨e', he', h3.trans h1, ?_⟩
            by_cases hh : e.id = c.1
            · rw [h4 hh]; exact hnow
            · rw [h5 hh]; exact h2
          · rw [List.mem_singleton] at hdm
            subst hdm
            obtain ⟨e', he', h3, h4, _⟩ := htouch e0 hm0
            exact ⟨e', he', h3.trans hid0, by rw [h4 hid0]; exact hnow⟩
      · rename_i hnone
        have hnone' := find_none (Option.not_isSome_iff_eq_none.mp hnone)
        refine ⟨⟨?_, ?_, ?_, ?_⟩, by simp, by simp only; omega, ?_, ?_⟩
        · simp only [List.map_append, List.map_cons, List.map_nil]
          rw [List.nodup_append]
          refine ⟨h.nodup, by simp, ?_⟩
          intro a ha b hb
          simp only [List.mem_singleton] at hb
          subst hb
          intro hab
          exact hnone' (hab ▸ ha)
        · intro e he
          rcases List.mem_append.mp he with he | he
          · exact h.stored e he
          · rw [List.mem_singleton] at he
            subst he
            exact hcs
        · simp [held, h.used]
        · intro e he
          rcases List.mem_append.mp he with he | he
          · exact lt_trans (h.past e he) hlt
          · rw [List.mem_singleton] at he
            subst he
            exact hlt
        · intro e he hst
          rcases List.mem_append.mp he with he | he
          · exact List.mem_append_left _ (hd e he hst)
          · rw [List.mem_singleton] at he
            subst he
            simp
        · intro d hdm
          rcases List.mem_append.mp hdm with hdm | hdm
          · obtain ⟨e, he, h1, h2⟩ := hd' d hdm
            exact ⟨e, List.mem_append_left _ he, h1, h2⟩
          · rw [List.mem_singleton] at hdm
            subst hdm
            exact ⟨⟨d.1, env.clock s.tick, d.2⟩, List.mem_append_right _ (by simp), rfl, hnow⟩
    obtain ⟨k1, k2, k3, k4, k5⟩ := key
    have := ih (cacheInsert env s c.1 c.2) (done ++ [c]) k1
      (fun d hd => hl d (List.mem_cons_of_mem _ hd)) k3 k4 k5
    simp only [List.append_assoc, List.cons_append, List.nil_append] at this
    simp only [List.foldl_cons]
    exact ⟨this.1, this.2.1.trans k2, this.2.2.1, this.2.2.2⟩

theorem sum_sublist {α : Type} (f : α → Nat) {l l' : List α} (h : l.Sublist l') :
    (l.map f).sum ≤ (l'.map f).sum := by
  induction h with
  | slnil => simp
  | cons a _ ih => simp only [List.map_cons, List.sum_cons]; omega
  | cons_cons a _ ih => simp only [List.map_cons, List.sum_cons]; omega

theorem sum_subset {α : Type} (f : α → Nat) {l l' : List α} (hn : l.Nodup) (h : ∀ a ∈ l, a ∈ l') :
    (l.map f).sum ≤ (l'.map f).sum := by
  obtain ⟨l2, hp, hs⟩ := List.subperm_of_subset hn h
  rw [← (hp.map f).sum_eq]
  exact sum_sublist f hs

/-- Shrinking never evicts entries newer than `T` if they fit. -/
theorem shrink_ok (he : EnvOk env) (limit T : Nat) (n : Nat) :
    ∀ (s : ReaderState Id), ReaderOk C R env s → s.entries.length ≤ n →
    held (fresh T s.entries) ≤ limit →
    ∃ s', shrinkTo env limit n s = .ok s' ∧ ReaderOk C R env s' ∧ s'.used ≤ limit ∧
      s'.biggest = s.biggest ∧ ∀ e ∈ s.entries, T ≤ e.stamp → e ∈ s'.entries := by
  induction n with
  | zero =>
    intro s h hl _
    have hnil : s.entries = [] := List.length_eq_zero_iff.mp (by omega)
    exact ⟨s, rfl, h, by rw [h.used, hnil]; simp [held], rfl, fun e he _ => he⟩
  | succ n ih =>
    intro s h hl hfit
    unfold shrinkTo
    split
    · rename_i hcond
      obtain ⟨e, h1, h2⟩ := he.pick s.entries hcond.1
      rw [h1]
      simp only
      have hem : e ∈ s.entries := List.mem_of_getElem? h1
      have hperm : s.entries.Perm (e :: s.entries.eraseIdx (env.pick s.entries)) := by
        obtain ⟨hlt, hget⟩ := List.getElem?_eq_some_iff.mp h1
        rw [← hget]
        exact (List.getElem_cons_eraseIdx_perm hlt).symm
      have hheld : held s.entries =
          e.chunk.length + held (s.entries.eraseIdx (env.pick s.entries)) := by
        unfold held
        rw [(hperm.map _).sum_eq]
        simp
      have hle : e.chunk.length ≤ s.used := by rw [h.used, hheld]; omega
      rw [if_pos hle]
      have hold : e.stamp < T := by
        by_contra hge
        have hall : fresh T s.entries = s.entries := by
          unfold fresh
          rw [List.filter_eq_self]
          intro e' he'
          simp only [decide_eq_true_eq]
          exact le_trans (Nat.not_lt.mp hge) (h2 e' he')
        rw [hall, ← h.used] at hfit
        omega
      have hsub : ∀ x ∈ s.entries.eraseIdx (env.pick s.entries), x ∈ s.entries :=
        fun x hx => hperm.mem_iff.mpr (List.mem_cons_of_mem _ hx)
      obtain ⟨s', g1, g2, g3, g4, g5⟩ := ih ⟨s.entries.eraseIdx (env.pick s.entries),
          s.used - e.chunk.length, s.biggest, s.tick⟩
        ⟨(List.nodup_cons.mp (((hperm.map Cached.id).nodup_iff).mp h.nodup)).2,
          fun x hx => h.stored x (hsub x hx), by simp only [h.used, hheld]; omega,
          fun x hx => h.past x (hsub x hx)⟩
        (by
          have := hperm.length_eq
          simp only [List.length_cons] at this
          simp only
          omega)
        (by
          refine le_trans ?_ hfit
          unfold held fresh
          have := (hperm.filter (fun e => decide (T ≤ e.stamp))).map (fun e => e.chunk.length)
          rw [this.sum_eq]
          rw [List.filter_cons_of_neg (by simpa using hold)])
      refine ⟨s', g1, g2, g3, g4, fun x hx hT => g5 x ?_ hT⟩
      rcases List.mem_cons.mp (hperm.mem_iff.mp hx) with rfl | h
      · omega
      · exact h
    · rename_i hcond
      refine ⟨s, rfl, h, ?_, rfl, fun e he _ => he⟩
      by_cases hnil : s.entries = []
      · rw [h.used, hnil]; simp [held]
      · have : ¬ limit < s.used := fun hlt => hcond ⟨hnil, hlt⟩
        omega

/-- Reading a stored chunk returns its bytes and keeps the cache in order, whatever was read
before. -/
theorem read_ok (he : EnvOk env) (hS : Sound C R) (ho : Opens R src) (s : ReaderState Id)
    (h : Settled C R env s) (id : Id) (x : Bytes) (hx : Has C R ⟨x, id, .chunk⟩) :
    ∃ s', readBlob C.hash src env s id = .ok (x, s') ∧ Settled C R env s' := by
  unfold readBlob
  cases hg : cacheGet env s id with
  | some r =>
    obtain ⟨y, s'⟩ := r
    obtain ⟨rfl, h2, h3, h4⟩ := cacheGet_hit he.clock hS h.toReaderOk hx hg
    exact ⟨s', rfl, h2, by rw [h3, h4]; exact h.small, by rw [h4]; exact h.size⟩
  | none =>
    obtain ⟨p, bs, st, h1, h2, h3, h4, h5, h6, h7⟩ := lookup_has hS ho hx
    simp only at h1
    simp only [h1, h6, h2]
    have hk : ∀ b ∈ bs, b.kind = .chunk := by
      obtain ⟨k, hk⟩ := hS.one_kind p _ h4
      have h8 := hk _ (List.mem_map.mpr ⟨_, h5, rfl⟩)
      intro b hb
      have h9 := hk _ (List.mem_map.mpr ⟨b, hb, rfl⟩)
      have h8' : k = .chunk := h8.symm
      rw [h8'] at h9
      exact h9
    have hload := Pack.loadLoop_written C.hash bs (fun b hb => (hS.hashes p bs b h4 h3 hb).symm) hk st h7
    rw [hload]
    simp only
    have hnew : ∀ e ∈ s.entries, ¬ env.clock s.tick ≤ e.stamp :=
      fun e hm hle => absurd (h.past e hm) (Nat.not_lt.mpr hle)
    have hins := insert_all (C := C) (R := R) he.clock hS s.tick
      (bs.map fun b => (b.id, b.data)) s [] h.toReaderOk (by
        intro c hc
        obtain ⟨b, hb, rfl⟩ := List.mem_map.mp hc
        have := (hS.has_iff b).mpr ⟨p, bs, h4, h3, hb⟩
        have hkb := hk b hb
        obtain ⟨d, i, k⟩ := b
        simp only at hkb
        subst hkb
        exact this) (le_refl _) (fun e he hle => absurd hle (hnew e he)) (by simp)
    simp only [List.nil_append] at hins
    generalize (bs.map fun b => (b.id, b.data)).foldl
      (fun s c => cacheInsert env s c.1 c.2) s = s1 at hins
    obtain ⟨i1, i2, i3, i4⟩ := hins
    generalize hsize : (bs.map fun b => b.data.length).sum = size
    have hfit : held (fresh (env.clock s.tick) s1.entries) ≤ max s1.biggest size * 2 := by
      have hb : held (fresh (env.clock s.tick) s1.entries) ≤ size := by
        have hmap : held (fresh (env.clock s.tick) s1.entries) =
            (((fresh (env.clock s.tick) s1.entries).map fun e => (e.id, e.chunk)).map
              fun c => c.2.length).sum := by
          unfold held
          rw [List.map_map]
          rfl
        have hsz : size = ((bs.map fun b => (b.id, b.data)).map fun c => c.2.length).sum := by
          rw [← hsize, List.map_map]
          rfl
        rw [hmap, hsz]
        refine sum_subset _ ?_ ?_
        · refine List.Nodup.of_map Prod.fst ?_
          rw [List.map_map]
          have : (Prod.fst ∘ fun e : Cached Id => (e.id, e.chunk)) = Cached.id := rfl
          rw [this]
          exact (List.filter_sublist.map Cached.id).nodup i1.nodup
        · intro a ha
          obtain ⟨e, hm, rfl⟩ := List.mem_map.mp ha
          obtain ⟨hm1, hm2⟩ := List.mem_filter.mp hm
          exact i3 e hm1 (by simpa using hm2)
      omega
    obtain ⟨s3, j1, j2, j3, j4, j5⟩ := shrink_ok (C := C) (R := R) he
      (max s1.biggest size * 2) (env.clock s.tick) s1.entries.length
      { s1 with biggest := max s1.biggest size }
      ⟨i1.nodup, i1.stored, i1.used, i1.past⟩ (le_refl _) hfit
    rw [j1]
    simp only
    cases hg' : cacheGet env s3 id with
    | none =>
      exfalso
      obtain ⟨e, hm, hid, hst⟩ := i4 (id, x) (List.mem_map.mpr ⟨_, h5, rfl⟩)
      have hin := j5 e hm hst
      unfold cacheGet at hg'
      split at hg'
      · rename_i hnone
        exact find_none hnone (List.mem_map.mpr ⟨e, hin, hid⟩)
      · simp at hg'
    | some r =>
      obtain ⟨y, s'⟩ := r
      obtain ⟨rfl, k2, k3, k4⟩ := cacheGet_hit he.clock hS j2 hx hg'
      refine ⟨s', rfl, k2, ?_, ?_⟩
      · rw [k3, k4, j4]; simp only at j3 ⊢; omega
      · rw [k4, j4]
        simp only
        rcases le_total s1.biggest size with hle | hle
        · rw [max_eq_right hle]
          exact .inr ⟨p, bs, h4, h3, hsize.symm⟩
        · rw [max_eq_left hle, i2]
          exact h.size

/-- Any sequence of reads of stored chunks, from a new reader, returns exactly their bytes; the
cache then holds no more than twice the size of some pack. -/
theorem reads_right (he : EnvOk env) (hS : Sound C R) (ho : Opens R src) (l : List (Id × Bytes))
    (hl : ∀ c ∈ l, Has C R ⟨c.2, c.1, .chunk⟩) :
    ∃ s', readBlobs C.hash src env ReaderState.new (l.map Prod.fst) = .ok (l.map Prod.snd, s') ∧
      ∃ n, SomePackSize R n ∧ (s'.entries.map fun e => e.chunk.length).sum ≤ 2 * n := by
  have main : ∀ s, Settled C R env s →
      ∃ s', readBlobs C.hash src env s (l.map Prod.fst) = .ok (l.map Prod.snd, s') ∧ Settled C R env s' := by
    induction l with
    | nil => exact fun s h => ⟨s, rfl, h⟩
    | cons c l ih =>
      intro s h
      obtain ⟨s1, h1, h2⟩ := read_ok he hS ho s h c.1 c.2 (hl c (by simp))
      obtain ⟨s2, h3, h4⟩ := ih (fun d hd => hl d (List.mem_cons_of_mem _ hd)) s1 h2
      refine ⟨s2, ?_, h4⟩
      simp only [List.map_cons, readBlobs, h1, h3]
  obtain ⟨s', h1, h2⟩ := main _ settled_new
  refine ⟨s', h1, s'.biggest, h2.size, ?_⟩
  have := h2.small
  rw [h2.used] at this
  exact this

/-- The size reported without reading a chunk is its size. -/
theorem size_right (hS : Sound C R) (ho : Opens R src) (id : Id) (x : Bytes)
    (hx : Has C R ⟨x, id, .chunk⟩) : blobSize src id = .ok x.length := by
  obtain ⟨p, bs, st, h1, h2, h3, h4, h5, h6, h7⟩ := lookup_has hS ho hx
  simp only at h1
  unfold blobSize
  simp only [h1, h2]
  cases hf : (Pack.manifestOf bs).find? (fun e => e.id = id) with
  | none =>
    have := List.find?_eq_none.mp hf _ (List.mem_map.mpr ⟨_, h5, rfl⟩)
    simp [Pack.entryOf] at this
  | some e =>
    have hm := List.mem_of_find?_eq_some hf
    have hid := List.find?_some hf
    simp only [decide_eq_true_eq] at hid
    obtain ⟨b, hb, rfl⟩ := List.mem_map.mp hm
    have : b = ⟨x, id, .chunk⟩ := hS.has_one ((hS.has_iff b).mpr ⟨p, bs, h4, h3, hb⟩) hx hid
    rw [this]
    rfl

/-- Whatever the packs hold (corrupt or not) and whatever the clock says, a read that succeeds
returns bytes that hash to the ID asked for. -/
theorem reads_verified (src : Source Id) (env : CacheEnv Id) (s s' : ReaderState Id) (id : Id)
    (x : Bytes) (hs : ∀ e ∈ s.entries, C.hash e.chunk = e.id)
    (h : readBlob C.hash src env s id = .ok (x, s')) :
    C.hash x = id ∧ ∀ e ∈ s'.entries, C.hash e.chunk = e.id := by
  have hget : ∀ s s' : ReaderState Id, ∀ x, (∀ e ∈ s.entries, C.hash e.chunk = e.id) →
      cacheGet env s id = some (x, s') → C.hash x = id ∧ ∀ e ∈ s'.entries, C.hash e.chunk = e.id := by
    intro s s' x hs hg
    unfold cacheGet at hg
    split at hg
    · simp at hg
    · rename_i e he
      obtain ⟨h1, h2⟩ := find_some he
      simp only [Option.some.injEq, Prod.mk.injEq] at hg
      obtain ⟨rfl, rfl⟩ := hg
      refine ⟨h2 ▸ hs e h1, fun e' he' => ?_⟩
      obtain ⟨e2, h3, h4, h5, _⟩ := mem_touch he'
      rw [h4, h5]
      exact hs e2 h3
  have hins : ∀ (l : List (Id × Bytes)) (s : ReaderState Id), (∀ c ∈ l, C.hash c.2 = c.1) →
      (∀ e ∈ s.entries, C.hash e.chunk = e.id) →
      ∀ e ∈ (l.foldl (fun s c => cacheInsert env s c.1 c.2) s).entries, C.hash e.chunk = e.id := by
    intro l
    induction l with
    | nil => exact fun s _ h => h
    | cons c l ih =>
      intro s hl h
      refine ih _ (fun d hd => hl d (List.mem_cons_of_mem _ hd)) ?_
      intro e he
      unfold cacheInsert at he
      beta_reduce at he
      split at he
      · obtain ⟨e2, h3, h4, h5, _⟩ := mem_touch he
        rw [h4, h5]
        exact h e2 h3
      · rcases List.mem_append.mp he with he | he
        · exact h e he
        · rw [List.mem_singleton] at he
          subst he
          exact hl c (by simp)
  have hshrink : ∀ (n limit : Nat) (s s' : ReaderState Id), shrinkTo env limit n s = .ok s' →
      (∀ e ∈ s.entries, C.hash e.chunk = e.id) → ∀ e ∈ s'.entries, C.hash e.chunk = e.id := by
    intro n
    induction n with
    | zero =>
      intro limit s s' h hs
      simp only [shrinkTo, Except.ok.injEq] at h
      subst h
      exact hs
    | succ n ih =>
      intro limit s s' h hs
      unfold shrinkTo at h
      split at h
      · split at h
        · simp at h
        · split at h
          · exact ih limit _ s' h (fun e he => hs e (List.mem_of_mem_eraseIdx he))
          · simp at h
      · simp only [Except.ok.injEq] at h
        subst h
        exact hs
  unfold readBlob at h
  split at h
  · rename_i r hr
    simp only [Except.ok.injEq] at h
    subst h
    exact hget s s' x hs hr
  · split at h
    · simp at h
    · split at h
      · simp at h
      · split at h
        · simp at h
        · split at h
          · simp at h
          · rename_i chunks size hl
            simp only at h
            split at h
            · simp at h
            · rename_i s3 h3
              split at h
              · simp at h
              · rename_i r hr
                simp only [Except.ok.injEq] at h
                subst h
                refine hget s3 s' x (hshrink _ _ _ _ h3 ?_) hr
                exact hins chunks s (Pack.loadLoop_sound C.hash _ _ _ _ hl).1 hs

/-! ## A clock that stands still -/

/-- Three packs of one chunk each. -/
def tieSource : Source Nat where
  index := ⟨[], [(1, [⟨.chunk, 1, 11⟩]), (2, [⟨.chunk, 1, 12⟩]), (3, [⟨.chunk, 1, 13⟩])]⟩
  blobMap := [(11, 1), (12, 2), (13, 3)]
  read p := .ok ⟨[UInt8.ofNat p], false⟩

/-- `Instant::now` may return the same reading twice; then the heap may pop any of the entries. -/
def tieEnv : CacheEnv Nat := ⟨fun _ => 0, fun l => l.length - 1⟩

/-- Without strictly increasing clock readings the chunk just loaded can be the one evicted,
and the read panics: the claim is false for a clock that merely never goes back. -/
theorem tie_panics :
    Monotone tieEnv.clock ∧
    (∀ l : List (Cached Nat), l ≠ [] → (∀ e ∈ l, e.stamp = 0) → ∃ e, l[tieEnv.pick l]? = some e ∧
      ∀ e' ∈ l, e.stamp ≤ e'.stamp) ∧
    (readBlobs (fun b => 10 + (b.headD 0).toNat) tieSource tieEnv ReaderState.new [11, 12, 13]).map Prod.fst =
      .error (.panic "called `Option::unwrap()` on a `None` value") := by
  refine ⟨fun a b _ => le_refl _, ?_, ?_⟩
  · intro l hl hz
    refine ⟨l[l.length - 1]'(by have := List.length_pos_iff.mpr hl; omega), ?_, ?_⟩
    · exact List.getElem?_eq_getElem _
    · intro e' _
      rw [hz _ (List.getElem_mem _)]
      exact Nat.zero_le _
  · decide

/-- Such a clock and heap exist: stamps count up, and the heap takes the first oldest entry. -/
def oldest : List (Cached Id) → Nat
  | [] => 0
  | [_] => 0
  | e :: e' :: l =>
    if (∀ x ∈ e' :: l, e.stamp ≤ x.stamp) then 0 else oldest (e' :: l) + 1

theorem oldest_min (l : List (Cached Id)) (h : l ≠ []) :
    ∃ e, l[oldest l]? = some e ∧ ∀ e' ∈ l, e.stamp ≤ e'.stamp := by
  induction l with
  | nil => exact absurd rfl h
  | cons e l ih =>
    cases l with
    | nil => exact ⟨e, by simp [oldest], by simp⟩
    | cons e' l =>
      unfold oldest
      split
      · rename_i hm
        refine ⟨e, by simp, ?_⟩
        intro x hx
        rcases List.mem_cons.mp hx with rfl | hx
        · exact le_refl _
        · exact hm x hx
      · rename_i hm
        obtain ⟨m, h1, h2⟩ := ih (by simp)
        refine ⟨m, by simpa using h1, ?_⟩
        intro x hx
        rcases List.mem_cons.mp hx with rfl | hx
        · simp only [not_forall] at hm
          obtain ⟨y, hy, hlt⟩ := hm
          have := h2 y hy
          omega
        · exact h2 x hx

example : EnvOk (Id := Nat) ⟨id, oldest⟩ := ⟨oldest_min, strictMono_id⟩

end Backpak.C33
