import Verif.Lemmas.Run

/-!
# Runs that replace every index
-/

namespace Backpak

open Spec Pipeline

variable {Id : Type} [LinearOrder Id] {C : Codec Id}

/-- Index `x`, under `i`, is the only live one, and all others are superseded by it. -/
structure Sole (R : Repo Id) (i : Id) (x : Index Id) : Prop where
  mem : (i, x) ∈ R.indexes
  others : ∀ j y, (j, y) ∈ R.indexes → j = i ∨ j ∈ x.supersedes
  live : ¬ Superseded R.indexes i

theorem Sole.listed {R : Repo Id} {i : Id} {x : Index Id} (h : Sole R i x) (hs : BMap.Sorted R.indexes)
    (p : Id) (m : Manifest Id) : Listed R.indexes p m ↔ (p, m) ∈ x.packs := by
  constructor
  · rintro ⟨j, y, ⟨h1, h2⟩, h3⟩
    rcases h.others j y h1 with rfl | h4
    · have a := (BMap.get?_eq_some_iff hs).mpr h1
      rw [(BMap.get?_eq_some_iff hs).mpr h.mem] at a
      cases a
      exact h3
    · exact absurd ⟨i, x, h.mem, h4⟩ h2
  · exact fun hm => ⟨i, x, ⟨h.mem, h.live⟩, hm⟩

/-- Removing what is not listed. -/
theorem Sound.trim {R R' : Repo Id} (h : Sound C R) (h1 : BMap.Sorted R'.packs)
    (h2 : BMap.Sorted R'.indexes) (h3 : ∀ p m, Listed R'.indexes p m ↔ Listed R.indexes p m)
    (h4 : ∀ e ∈ R'.packs, e ∈ R.packs)
    (h5 : ∀ p bs, Listed R.indexes p (Pack.manifestOf bs) → (p, bs) ∈ R.packs → (p, bs) ∈ R'.packs) :
    Sound C R' ∧ ∀ b, Has C R' b ↔ Has C R b := by
  constructor
  · refine (h.ledger.mono (fun p bs hl => ⟨(h3 _ _).mp hl.1, h4 _ hl.2⟩)).sound h1 h2 ?_
    intro p m hl
    obtain ⟨bs, hb, rfl⟩ := h.present p m ((h3 _ _).mp hl)
    exact ⟨bs, h5 p bs ((h3 _ _).mp hl) hb, rfl⟩
  · intro b
    constructor
    · rintro ⟨a, p, bs, hl, hp, hb⟩
      exact ⟨a, p, bs, (h3 _ _).mp hl, h4 _ hp, hb⟩
    · rintro ⟨a, p, bs, hl, hp, hb⟩
      exact ⟨a, p, bs, (h3 _ _).mpr hl, h5 p bs hl hp, hb⟩

/-- Operations that remove other indexes, and packs the index does not list. -/
def Trims (i : Id) (x : Index Id) (o : Post Id) : Prop :=
  (∃ j, o = .rmIndex j ∧ j ≠ i) ∨ (∃ p, o = .rmPack p ∧ p ∉ BMap.keys x.packs)

/-- What is the same after such operations. -/
structure Trimmed (C : Codec Id) (R R' : Repo Id) (i : Id) (x : Index Id) : Prop where
  sound : Sound C R'
  sole : Sole R' i x
  has : ∀ b, Has C R' b ↔ Has C R b
  snaps : R'.snapshots = R.snapshots
  packs : ∀ e ∈ R'.packs, e ∈ R.packs
  indexes : ∀ e ∈ R'.indexes, e ∈ R.indexes

theorem trim_one (ids : Ids Id) {R : Repo Id} {i : Id} {x : Index Id} (hS : Sound C R)
    (hx : Sole R i x) {o : Post Id} (ho : Trims i x o) : Trimmed C R (applyPost ids R o) i x := by
  rcases ho with ⟨j, rfl, hj⟩ | ⟨p, rfl, hp⟩
  · have hsole : Sole (applyPost ids R (.rmIndex j)) i x := by
      refine ⟨BMap.mem_erase_iff.mpr ⟨fun h => hj h.symm, hx.mem⟩,
        fun k y h => hx.others k y (BMap.mem_erase_iff.mp h).2, ?_⟩
      rintro ⟨k, y, h, hi⟩
      exact hx.live ⟨k, y, (BMap.mem_erase_iff.mp h).2, hi⟩
    have hsort : BMap.Sorted (applyPost ids R (.rmIndex j)).indexes := BMap.sorted_erase hS.indexes_sorted j
    obtain ⟨a, b⟩ := hS.trim (R' := applyPost ids R (.rmIndex j)) hS.packs_sorted hsort
      (fun p m => by rw [hsole.listed hsort, hx.listed hS.indexes_sorted])
      (fun e he => he) (fun p bs _ h => h)
    exact ⟨a, hsole, b, rfl, fun e he => he, fun e he => (BMap.mem_erase_iff.mp he).2⟩
  · have hsole : Sole (applyPost ids R (.rmPack p)) i x := ⟨hx.mem, hx.others, hx.live⟩
    obtain ⟨a, b⟩ := hS.trim (R' := applyPost ids R (.rmPack p)) (BMap.sorted_erase hS.packs_sorted p)
      hS.indexes_sorted (fun p m => Iff.rfl) (fun e he => (BMap.mem_erase_iff.mp he).2)
      (by
        intro q bs hl hb
        refine BMap.mem_erase_iff.mpr ⟨?_, hb⟩
        rintro rfl
        exact hp (BMap.mem_keys_of_mem ((hx.listed hS.indexes_sorted _ _).mp hl)))
    exact ⟨a, hsole, b, rfl, fun e he => (BMap.mem_erase_iff.mp he).2, fun e he => he⟩

theorem trim_all (ids : Ids Id) {R : Repo Id} {i : Id} {x : Index Id} (hS : Sound C R)
    (hx : Sole R i x) (ops : List (Post Id)) (ho : ∀ o ∈ ops, Trims i x o) :
    Trimmed C R (ops.foldl (applyPost ids) R) i x := by
  induction ops generalizing R with
  | nil => exact ⟨hS, hx, fun _ => Iff.rfl, rfl, fun e he => he, fun e he => he⟩
  | cons o ops ih =>
    have h1 := trim_one ids hS hx (ho o List.mem_cons_self)
    have h2 := ih h1.sound h1.sole (fun o h => ho o (List.mem_cons_of_mem _ h))
    exact ⟨h2.sound, h2.sole, fun b => (h2.has b).trans (h1.has b), h2.snaps.trans h1.snaps,
      fun e he => h1.packs e (h2.packs e he), fun e he => h1.indexes e (h2.indexes e he)⟩

/-- No index the run could write has the ID of one that is there or was superseded. -/
def IndexNew (c : Cfg Id) (R : Repo Id) (ss : List (Blob Id)) : Prop :=
  ∀ x, Writes c ss x → c.ids.indexId x ∉ BMap.keys R.indexes ∧ ¬ Superseded R.indexes (c.ids.indexId x)

/-- A run whose index supersedes all there are: until it is uploaded nothing changes; then it is
the only live one and what can be found is what the run started from and sent. -/
theorem replace {c : Cfg Id} {w : World Id} {main : List (Op Id)} (hr : RunOk c w main)
    (hS : Sound C w.repo) (hsup : c.start.supersedes = BMap.keys w.repo.indexes)
    (hL : Ledger C (StartPack c)) (hf : Fresh C (StartPack c) (sends main))
    (hx : IndexNew c w.repo (sends main)) {s : State Id} (h : Reachable c w main s) :
    (s.world.repo.indexes = w.repo.indexes ∧ Sound C s.world.repo ∧
      ∀ b, Has C w.repo b → Has C s.world.repo b) ∨
    ∃ x news, NewIndex c w.repo s.world.repo (sends main) x news ∧ Sound C s.world.repo ∧
      Sole s.world.repo (c.ids.indexId x) x ∧
      ∀ b, Has C s.world.repo b ↔ (b ∈ sends main ∨ ∃ p bs, StartPack c p bs ∧ b ∈ bs) := by
  have he := effect hr h
  rcases he.idx with h1 | ⟨x, news, hn⟩
  · obtain ⟨a, b⟩ := sound_same hS he h1
    exact .inl ⟨h1, a, b⟩
  · right
    refine ⟨x, news, hn, ?_⟩
    obtain ⟨hi1, hi2⟩ := hx x hn.writes
    have hxs : x.supersedes = BMap.keys w.repo.indexes := hn.sup.trans hsup
    have hsole : Sole s.world.repo (c.ids.indexId x) x := by
      refine ⟨?_, ?_, ?_⟩
      · rw [hn.put]; exact (BMap.mem_insert_iff hS.indexes_sorted).mpr (.inl ⟨rfl, rfl⟩)
      · intro j y hj
        rw [hn.put] at hj
        rcases BMap.mem_insert_of hj with ⟨h1, _⟩ | hj
        · exact .inl h1
        · exact .inr (by rw [hxs]; exact BMap.mem_keys_of_mem hj)
      · rw [hn.put, superseded_insert hS.indexes_sorted
          (fun y hy => absurd (BMap.mem_keys_of_mem hy) hi1)]
        rintro (h1 | h1)
        · exact hi2 h1
        · rw [hxs] at h1; exact hi1 h1
    have hlist := hsole.listed he.isort
    have hgood : ∀ p bs, StartPack c p bs ∨ (p, bs) ∈ news → Good c p bs := by
      rintro p bs (h | h)
      · exact h.2
      · exact hn.good _ h
    have hled := hL.add hf hn.blobs hn.kinds
      (fun p bs bs' h1 h2 => Good_unique hr.inj (hgood p bs h1) (hgood p bs' h2))
    have hmem : ∀ p bs, Good c p bs → ((p, Pack.manifestOf bs) ∈ x.packs ↔
        StartPack c p bs ∨ (p, bs) ∈ news) := by
      intro p bs hg
      rw [hn.packs.mem_iff, List.mem_append, List.mem_map]
      constructor
      · rintro (h1 | ⟨⟨q, cs⟩, h1, heq⟩)
        · exact .inl ⟨h1, hg⟩
        · simp only [Prod.mk.injEq] at heq
          obtain ⟨rfl, _⟩ := heq
          have := Good_unique hr.inj hg (hn.good _ h1)
          subst this
          exact .inr h1
      · rintro (h1 | h1)
        · exact .inl h1.1
        · exact .inr ⟨_, h1, rfl⟩
    have hlive : ∀ p bs, LivePack s.world.repo p bs ↔ StartPack c p bs ∨ (p, bs) ∈ news := by
      intro p bs
      constructor
      · rintro ⟨h1, h2⟩
        exact (hmem p bs (he.names _ _ h2)).mp ((hlist _ _).mp h1)
      · intro h1
        have hg := hgood p bs h1
        have hm := (hmem p bs hg).mpr h1
        obtain ⟨cs, hc, _⟩ := hn.there _ _ hm
        have := Good_unique hr.inj hg (he.names _ _ hc)
        subst this
        exact ⟨(hlist _ _).mpr hm, hc⟩
    have hSound : Sound C s.world.repo := by
      refine (hled.mono (fun p bs h => (hlive p bs).mp h)).sound he.psort he.isort ?_
      intro p m hl
      exact hn.there p m ((hlist _ _).mp hl)
    refine ⟨hSound, hsole, ?_⟩
    intro b
    rw [hSound.has_iff]
    constructor
    · rintro ⟨p, bs, h1, h2, h3⟩
      rcases (hlive p bs).mp ⟨h1, h2⟩ with h4 | h4
      · exact .inr ⟨p, bs, h4, h3⟩
      · exact .inl (hn.blobs.subset (List.mem_flatMap.mpr ⟨_, h4, h3⟩))
    · rintro (hb | ⟨p, bs, hp, hb⟩)
      · obtain ⟨⟨p, bs⟩, hm, hb⟩ := List.mem_flatMap.mp (hn.blobs.symm.subset hb)
        have := (hlive p bs).mpr (.inr hm)
        exact ⟨p, bs, this.1, this.2, hb⟩
      · have := (hlive p bs).mpr (.inl hp)
        exact ⟨p, bs, this.1, this.2, hb⟩

end Backpak
