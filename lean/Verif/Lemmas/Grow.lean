import Verif.Lemmas.Effect

/-!
# Runs keep a repository in good order
-/

namespace Backpak

open Spec Pipeline

variable {Id : Type} [LinearOrder Id] {C : Codec Id}

/-- The indexes a run could write, also if it sends only some of its blobs: the starting packs and
packs made of the blobs sent. -/
structure Writes (c : Cfg Id) (ss : List (Blob Id)) (x : Index Id) : Prop where
  sup : x.supersedes = c.start.supersedes
  sorted : BMap.Sorted x.packs
  packs : ∃ (news : List (Id × Pack Id)) (rest : List (Blob Id)),
    (news.flatMap Prod.snd ++ rest).Perm ss ∧
    (∀ e ∈ news, Good c e.1 e.2) ∧ (∀ e ∈ news, e.2 ≠ [] ∧ ∃ k, ∀ b ∈ e.2, b.kind = k) ∧
    x.packs.Perm (c.start.packs ++ news.map (fun e => (e.1, Pack.manifestOf e.2)))

/-- No index the run could write has the ID of one that was superseded, or that it supersedes itself,
or of a different index already there. -/
def IndexOk (c : Cfg Id) (R : Repo Id) (ss : List (Blob Id)) : Prop :=
  ∀ x, Writes c ss x → ¬ Superseded R.indexes (c.ids.indexId x) ∧
    (∀ y, (c.ids.indexId x, y) ∈ R.indexes → y = x) ∧ c.ids.indexId x ∉ c.start.supersedes

theorem covers_plain {x : Index Id} {files : BMap Id (Index Id)} (h : x.supersedes = []) : Covers x files := by
  intro i hi
  rw [h] at hi
  cases hi

theorem Covers.writes {c : Cfg Id} {files : BMap Id (Index Id)} {ss : List (Blob Id)} {x : Index Id}
    (h : Covers c.start files) (hw : Writes c ss x) : Covers x files := by
  obtain ⟨news, _, _, _, _, hp⟩ := hw.packs
  intro i hi y hy e he
  rw [hw.sup] at hi
  exact hp.symm.subset (List.mem_append_left _ (h i hi y hy e he))

theorem NewIndex.writes {c : Cfg Id} {R R' : Repo Id} {ss : List (Blob Id)} {x : Index Id}
    {news : List (Id × Pack Id)} (h : NewIndex c R R' ss x news) : Writes c ss x :=
  ⟨h.sup, h.sorted, news, [], by simpa using h.blobs, h.good, h.kinds, h.packs⟩

theorem superseded_insert {files : BMap Id (Index Id)} (hs : BMap.Sorted files) {i : Id} {x : Index Id}
    (hold : ∀ y, (i, y) ∈ files → y = x) (j : Id) :
    Superseded (BMap.insert i x files) j ↔ Superseded files j ∨ j ∈ x.supersedes := by
  constructor
  · rintro ⟨k, y, hy, hj⟩
    rcases BMap.mem_insert_of hy with ⟨_, rfl⟩ | hy
    · exact .inr hj
    · exact .inl ⟨k, y, hy, hj⟩
  · rintro (⟨k, y, hy, hj⟩ | hj)
    · by_cases hk : k = i
      · subst hk
        have := hold y hy
        subst this
        exact ⟨k, y, (BMap.mem_insert_iff hs).mpr (.inl ⟨rfl, rfl⟩), hj⟩
      · exact ⟨k, y, (BMap.mem_insert_iff hs).mpr (.inr ⟨hk, hy⟩), hj⟩
    · exact ⟨i, x, (BMap.mem_insert_iff hs).mpr (.inl ⟨rfl, rfl⟩), hj⟩

/-- Adding an index that is not superseded and covers what it supersedes. -/
theorem listed_add {files : BMap Id (Index Id)} (hs : BMap.Sorted files) {i : Id} {x : Index Id}
    (hold : ∀ y, (i, y) ∈ files → y = x) (hi : ¬ Superseded files i) (hself : i ∉ x.supersedes)
    (hx : Covers x files) (p : Id) (m : Manifest Id) :
    Listed (BMap.insert i x files) p m ↔ Listed files p m ∨ (p, m) ∈ x.packs := by
  have hsup := superseded_insert hs hold
  have hnew : (p, m) ∈ x.packs → Listed (BMap.insert i x files) p m := fun hp =>
    ⟨i, x, ⟨(BMap.mem_insert_iff hs).mpr (.inl ⟨rfl, rfl⟩), by rw [hsup]; exact fun h => h.elim hi hself⟩, hp⟩
  constructor
  · rintro ⟨j, y, ⟨hy, hj⟩, hp⟩
    rcases BMap.mem_insert_of hy with ⟨_, rfl⟩ | hy
    · exact .inr hp
    · exact .inl ⟨j, y, ⟨hy, fun h => hj ((hsup j).mpr (.inl h))⟩, hp⟩
  · rintro (⟨j, y, ⟨hy, hj⟩, hp⟩ | hp)
    · by_cases hk : j = i
      · subst hk
        have := hold y hy
        subst this
        exact hnew hp
      · by_cases hk' : j ∈ x.supersedes
        · exact hnew (hx j hk' y ⟨hy, hj⟩ _ hp)
        · exact ⟨j, y, ⟨(BMap.mem_insert_iff hs).mpr (.inr ⟨hk, hy⟩),
            by rw [hsup]; exact fun h => h.elim hj hk'⟩, hp⟩
    · exact hnew hp

/-- The packs a run starts from, with their blobs. -/
def StartPack (c : Cfg Id) (p : Id) (bs : Pack Id) : Prop :=
  (p, Pack.manifestOf bs) ∈ c.start.packs ∧ Good c p bs

/-- The packs that count before a run: live ones, and those it starts from. -/
def Before (c : Cfg Id) (R : Repo Id) (p : Id) (bs : Pack Id) : Prop :=
  LivePack R p bs ∨ StartPack c p bs

theorem LivePack.good {c : Cfg Id} {w : World Id} {p : Id} {bs : Pack Id}
    (hw : WorldOk c w) (h : LivePack w.repo p bs) : Good c p bs := hw.repo p bs h.2

theorem Good_unique {c : Cfg Id} (hi : PackInj c) {p : Id} {a b : Pack Id} (h1 : Good c p a)
    (h2 : Good c p b) : a = b := hi a b h1.2 h2.2 (h1.1.symm.trans h2.1)

/-- Packs stay live as long as the index files are the same. -/
theorem sound_same {c : Cfg Id} {R R' : Repo Id} {ss : List (Blob Id)} (hS : Sound C R)
    (he : Effect c R R' ss) (hi : R'.indexes = R.indexes) : Sound C R' ∧ ∀ b, Has C R b → Has C R' b := by
  have hlive : ∀ p bs, LivePack R' p bs → LivePack R p bs := by
    rintro p bs ⟨h1, h2⟩
    rw [hi] at h1
    obtain ⟨cs, hc, hm⟩ := hS.present _ _ h1
    have := (BMap.get?_eq_some_iff he.psort).mpr (he.keep _ hc)
    rw [(BMap.get?_eq_some_iff he.psort).mpr h2] at this
    cases this
    exact ⟨h1, hc⟩
  refine ⟨(hS.ledger.mono hlive).sound he.psort he.isort ?_, ?_⟩
  · intro p m hl
    rw [hi] at hl
    obtain ⟨cs, hc, hm⟩ := hS.present _ _ hl
    exact ⟨cs, he.keep _ hc, hm⟩
  · rintro b ⟨h1, p, bs, h2, h3, h4⟩
    exact ⟨h1, p, bs, by rw [hi]; exact h2, he.keep _ h3, h4⟩

/-- A run that adds to a repository: it stays in good order, nothing is lost, and when the
threads have been joined everything is there. -/
theorem grow {c : Cfg Id} {w : World Id} {main : List (Op Id)} (hr : RunOk c w main)
    (hS : Sound C w.repo) (hsup : Covers c.start w.repo.indexes) (hL : Ledger C (Before c w.repo))
    (hf : Fresh C (Before c w.repo) (sends main)) (hx : IndexOk c w.repo (sends main))
    {s : State Id} (h : Reachable c w main s) :
    Sound C s.world.repo ∧ (∀ b, Has C w.repo b → Has C s.world.repo b) ∧
    (s.joined = true → ∀ b, (b ∈ sends main ∨ ∃ p bs, StartPack c p bs ∧ b ∈ bs) →
      Has C s.world.repo b) := by
  have he := effect hr h
  have hnew : ∀ x news, NewIndex c w.repo s.world.repo (sends main) x news →
      Sound C s.world.repo ∧ (∀ b, Has C w.repo b → Has C s.world.repo b) ∧
      (∀ b, (b ∈ sends main ∨ ∃ p bs, StartPack c p bs ∧ b ∈ bs) → Has C s.world.repo b) := by
    intro x news hn
    obtain ⟨hi1, hi2, hi3⟩ := hx x hn.writes
    have hlist := listed_add hS.indexes_sorted hi2 hi1 (by rw [hn.sup]; exact hi3) (hsup.writes hn.writes)
    rw [← hn.put] at hlist
    have hxp : ∀ p m, (p, m) ∈ x.packs ↔ (p, m) ∈ c.start.packs ∨
        ∃ bs, (p, bs) ∈ news ∧ Pack.manifestOf bs = m := by
      intro p m
      rw [hn.packs.mem_iff, List.mem_append, List.mem_map]
      constructor
      · rintro (h | ⟨⟨q, bs⟩, h, heq⟩)
        · exact .inl h
        · cases heq; exact .inr ⟨bs, h, rfl⟩
      · rintro (h | ⟨bs, h, rfl⟩)
        · exact .inl h
        · exact .inr ⟨(p, bs), h, rfl⟩
    have hone : ∀ p bs bs', Before c w.repo p bs ∨ (p, bs) ∈ news →
        Before c w.repo p bs' ∨ (p, bs') ∈ news → bs = bs' := by
      have hg : ∀ p bs, Before c w.repo p bs ∨ (p, bs) ∈ news → Good c p bs := by
        rintro p bs ((h | h) | h)
        · exact h.good hr.world
        · exact h.2
        · exact hn.good _ h
      exact fun p bs bs' h1 h2 => Good_unique hr.inj (hg p bs h1) (hg p bs' h2)
    have hled := hL.add hf hn.blobs hn.kinds hone
    have hlive : ∀ p bs, LivePack s.world.repo p bs → Before c w.repo p bs ∨ (p, bs) ∈ news := by
      rintro p bs ⟨h1, h2⟩
      have hg := he.names _ _ h2
      rcases (hlist p _).mp h1 with h1 | h1
      · obtain ⟨cs, hc, hm⟩ := hS.present _ _ h1
        have := Good_unique hr.inj hg (hr.world.repo _ _ hc)
        subst this
        exact .inl (.inl ⟨h1, hc⟩)
      · rcases (hxp p _).mp h1 with h1 | ⟨cs, h1, _⟩
        · exact .inl (.inr ⟨h1, hg⟩)
        · have := Good_unique hr.inj hg (hn.good _ h1)
          subst this
          exact .inr h1
    have hback : ∀ p bs, Before c w.repo p bs ∨ (p, bs) ∈ news → LivePack s.world.repo p bs := by
      have hx : ∀ p bs, Good c p bs → (p, Pack.manifestOf bs) ∈ x.packs → LivePack s.world.repo p bs := by
        intro p bs hg hm
        obtain ⟨cs, hc, _⟩ := hn.there _ _ hm
        have := Good_unique hr.inj hg (he.names _ _ hc)
        subst this
        exact ⟨(hlist _ _).mpr (.inr hm), hc⟩
      rintro p bs ((h | h) | h)
      · exact ⟨(hlist _ _).mpr (.inl h.1), he.keep _ h.2⟩
      · exact hx p bs h.2 ((hxp _ _).mpr (.inl h.1))
      · exact hx p bs (hn.good _ h) ((hxp _ _).mpr (.inr ⟨bs, h, rfl⟩))
    have hSound : Sound C s.world.repo := by
      refine (hled.mono hlive).sound he.psort he.isort ?_
      intro p m hl
      rcases (hlist p m).mp hl with h1 | h1
      · obtain ⟨cs, hc, hm⟩ := hS.present _ _ h1
        exact ⟨cs, he.keep _ hc, hm⟩
      · exact hn.there p m h1
    refine ⟨hSound, ?_, ?_⟩
    · rintro b ⟨h1, p, bs, h2, h3, h4⟩
      have := hback p bs (.inl (.inl ⟨h2, h3⟩))
      exact ⟨h1, p, bs, this.1, this.2, h4⟩
    · intro b hb
      rw [hSound.has_iff]
      rcases hb with hb | ⟨p, bs, hp, hb⟩
      · obtain ⟨⟨p, bs⟩, hm, hb⟩ := List.mem_flatMap.mp (hn.blobs.symm.subset hb)
        have := hback p bs (.inr hm)
        exact ⟨p, bs, this.1, this.2, hb⟩
      · have := hback p bs (.inl (.inr hp))
        exact ⟨p, bs, this.1, this.2, hb⟩
  by_cases hj : s.joined = true
  · rcases effect_joined hr h hj with ⟨h1, h2, h3⟩ | ⟨x, news, hn⟩
    · obtain ⟨a, b⟩ := sound_same hS he h3
      refine ⟨a, b, fun _ b hb => ?_⟩
      rcases hb with hb | ⟨p, bs, hp, _⟩
      · rw [h2] at hb; cases hb
      · simp only [Index.isEmpty, Bool.and_eq_true, List.isEmpty_iff] at h1
        have := hp.1
        rw [h1.2] at this
        cases this
    · obtain ⟨a, b, d⟩ := hnew x news hn
      exact ⟨a, b, fun _ => d⟩
  · rcases he.idx with h1 | ⟨x, news, hn⟩
    · obtain ⟨a, b⟩ := sound_same hS he h1
      exact ⟨a, b, fun h => absurd h hj⟩
    · obtain ⟨a, b, _⟩ := hnew x news hn
      exact ⟨a, b, fun h => absurd h hj⟩

end Backpak
