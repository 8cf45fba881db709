import Verif.Lemmas.Run

/-!
# What packs a run has stored so far

At every instant, not only once its index is written: each pack it has put in the repository is one it started
with or one made of the blobs sent so far, and no blob is in two of them.
-/

namespace Backpak

open Spec Pipeline

variable {Id : Type} [LinearOrder Id] {C : Codec Id}

/-- What is known of the packs stored, and of the one being stored. -/
structure Puts (c : Cfg Id) (w : World Id) (main : List (Op Id)) (s : State Id) (news : List (Id × Pack Id)) : Prop where
  acct : Acct c main s news
  ups : ∀ p, Op.up p ∈ s.main → p ∈ BMap.keys c.start.packs
  puts : ∀ q bs, (q, bs) ∈ s.world.repo.packs ∨ s.up = .busy (.pack q bs) →
    (q, bs) ∈ w.repo.packs ∨ StartPack c q bs ∨ (q, bs) ∈ news ∨ ∃ k, s.pk k = .sendIdx q bs

theorem hold_sent {c : Cfg Id} {main : List (Op Id)} {s : State Id} {news : List (Id × Pack Id)}
    (h : Acct c main s news) {k : Kind} {b : Blob Id} (hb : b ∈ (s.pk k).hold) : b ∈ sends main := by
  refine h.blobs.subset (List.mem_append_right _ ?_)
  cases k
  · exact List.mem_append_left _ hb
  · exact List.mem_append_right _ (List.mem_append_left _ hb)

/-- No pack comes to the indexer twice. -/
theorem no_dup {c : Cfg Id} {w : World Id} {main : List (Op Id)} (hr : RunOk c w main)
    (hf : Fresh C (StartPack c) (sends main)) {s : State Id} (hn : Named c s) {news : List (Id × Pack Id)}
    (ha : Acct c main s news) {k : Kind} {id : Id} {bs : Pack Id} {x : Index Id}
    (hk : s.pk k = .sendIdx id bs) (hi : s.ix = .recv x) : id ∉ BMap.keys x.packs := by
  intro hd
  obtain ⟨m, hm⟩ := BMap.mem_keys_iff.mp hd
  have hm := BMap.mem_of_get? hm
  have hg := hn.pk k id bs (.inr hk)
  have hhold : (s.pk k).hold = bs := by rw [hk]; rfl
  obtain ⟨b, hb⟩ := List.exists_mem_of_ne_nil _ (ha.ne k id bs (.inr hk))
  have hbs := hold_sent ha (k := k) (b := b) (by rw [hhold]; exact hb)
  have hp := ha.packs
  rw [show idxPacks s.ix = x.packs by rw [hi]; rfl] at hp
  rcases List.mem_append.mp (hp.subset hm) with h1 | h1
  · obtain ⟨cs, hc, rfl⟩ := hr.startGood _ _ h1
    have := Good_unique hr.inj hc hg
    subst this
    exact hf.new b hbs id cs ⟨h1, hc⟩ b hb rfl
  · obtain ⟨⟨q, cs⟩, h2, h3⟩ := List.mem_map.mp h1
    cases h3
    have := Good_unique hr.inj (ha.good _ h2) hg
    subst this
    have hnd := (ha.blobs.map Blob.id).nodup_iff.mpr hf.nodup
    rw [List.map_append] at hnd
    refine (List.nodup_append.mp hnd).2.2 b.id ?_ b.id ?_ rfl
    · exact List.mem_map.mpr ⟨b, List.mem_flatMap.mpr ⟨_, h2, hb⟩, rfl⟩
    · refine List.mem_map.mpr ⟨b, ?_, rfl⟩
      have hb' : b ∈ (s.pk k).hold := by rw [hhold]; exact hb
      cases k
      · exact List.mem_append_left _ hb'
      · exact List.mem_append_right _ (List.mem_append_left _ hb')

theorem puts_step {c : Cfg Id} {w : World Id} {main : List (Op Id)} (hr : RunOk c w main)
    (hf : Fresh C (StartPack c) (sends main)) {s t : State Id} (hn : Named c s) {news : List (Id × Pack Id)}
    (h : Puts c w main s news) (hs : Step c s t) : ∃ news', Puts c w main t news' := by
  rcases acct_next hn hr.ne h.acct hs with ⟨k, id, bs, x, h1, h2, h3, _⟩ | ⟨news', h1, h2, h3⟩
  · exact absurd h3 (no_dup hr hf hn h.acct h1 h2)
  have carry : ∀ q bs, (q, bs) ∈ s.world.repo.packs ∨ s.up = .busy (.pack q bs) →
      (q, bs) ∈ w.repo.packs ∨ StartPack c q bs ∨ (q, bs) ∈ news' ∨ ∃ k, t.pk k = .sendIdx q bs := by
    intro q bs hq
    rcases h.puts q bs hq with h4 | h4 | h4 | ⟨k, h4⟩
    · exact .inl h4
    · exact .inr (.inl h4)
    · exact .inr (.inr (.inl (h1 _ h4)))
    · rcases h2 k q bs h4 with h5 | h5
      · exact .inr (.inr (.inr ⟨k, h5⟩))
      · exact .inr (.inr (.inl h5))
  have stored : ∀ i, s.up = .busy i → ∀ q bs, (q, bs) ∈ (putItem s.world.repo i).packs →
      (q, bs) ∈ s.world.repo.packs ∨ s.up = .busy (.pack q bs) := by
    intro i hi q bs hq
    cases i with
    | pack p cs =>
      rcases BMap.mem_insert_of hq with ⟨rfl, rfl⟩ | hq
      · exact .inr hi
      · exact .inl hq
    | index p y => exact .inl hq
  refine ⟨news', h3, ?_, ?_⟩
  · intro p hp
    cases hs with
    | mainUp q bs rest hm _ _ _ => exact h.ups p (by rw [hm]; exact List.mem_cons_of_mem _ hp)
    | mainSend b cur rest hm _ _ => exact h.ups p (by rw [hm]; exact List.mem_cons_of_mem _ hp)
    | spawn | close | endPack | packerExit | packerUp | packerIdx | packerDup | ixPersist | ixEmpty | ixClosed
    | ixPersistLast | ixCopy | ixUp | upStore | upDrop | upMove | upDiscard | upExit | join => exact h.ups p hp
  · cases hs with
    | mainUp p bs rest hm _ _ hg =>
      intro q cs hq
      rcases hq with hq | hq
      · exact carry q cs (.inl hq)
      · cases hq
        have g := hn.cwd _ _ (BMap.mem_of_get? hg)
        obtain ⟨m, hm'⟩ := BMap.mem_keys_iff.mp (h.ups p (by rw [hm]; exact List.mem_cons_self))
        have hm' := BMap.mem_of_get? hm'
        obtain ⟨ds, g2, rfl⟩ := hr.startGood _ _ hm'
        have := Good_unique hr.inj g2 g
        subst this
        exact .inr (.inl ⟨hm', g⟩)
    | packerUp k id bs hk _ _ =>
      intro q cs hq
      rcases hq with hq | hq
      · exact carry q cs (.inl hq)
      · cases hq
        exact .inr (.inr (.inr ⟨k, Function.update_self ..⟩))
    | upStore i hu _ =>
      intro q cs hq
      rcases hq with hq | hq
      · exact carry q cs (stored i hu q cs hq)
      · cases hq
    | upMove i hu _ =>
      intro q cs hq
      rcases hq with hq | hq
      · exact carry q cs (stored i hu q cs hq)
      · cases hq
    | ixUp _ _ _ _ | upDrop _ _ | upDiscard _ _ _ | upExit _ _ _ _ _ _ =>
      intro q cs hq
      rcases hq with hq | hq
      · exact carry q cs (.inl hq)
      · cases hq
    | spawn | close | endPack | packerExit | mainSend | packerIdx | packerDup | ixPersist | ixEmpty | ixClosed
    | ixPersistLast | ixCopy | join => exact carry

theorem puts_run {c : Cfg Id} {w : World Id} {main : List (Op Id)} (hr : RunOk c w main)
    (hf : Fresh C (StartPack c) (sends main)) (hu : ∀ p, Op.up p ∈ main → p ∈ BMap.keys c.start.packs)
    {s : State Id} (h : Reachable c w main s) : ∃ news, Puts c w main s news := by
  have : Named c s ∧ ∃ news, Puts c w main s news := by
    refine reach_induct (P := fun s => Named c s ∧ ∃ news, Puts c w main s news) ?_ ?_ h
    · refine ⟨named hr.world .refl, ?_⟩
      rcases acct hr.world hr.startSort hr.ne (s := init c w main) .refl with h1 | ⟨news, h1⟩
      · simp only [init] at h1
        split at h1 <;> cases h1
      · exact ⟨news, h1, hu, fun q bs hq => .inl (hq.resolve_right (by simp [init]))⟩
    · rintro s t ⟨h1, news, h2⟩ hs
      exact ⟨named_step h1 hs, puts_step hr hf h1 h2 hs⟩
  exact this.2

/-- What a packer has sent to the uploader and not yet to the indexer, and what else it holds. -/
def inFlight : PackerState Id → List (Id × Pack Id)
  | .sendIdx q bs => [(q, bs)]
  | _ => []

def notYet : PackerState Id → List (Blob Id)
  | .sendIdx _ _ => []
  | p => p.hold

omit [LinearOrder Id] in
theorem flight_hold (p : PackerState Id) : (inFlight p).flatMap Prod.snd ++ notYet p = p.hold := by
  cases p <;> simp [inFlight, notYet, PackerState.hold]

omit [LinearOrder Id] in
theorem flight {p : PackerState Id} {e : Id × Pack Id} : e ∈ inFlight p ↔ p = .sendIdx e.1 e.2 := by
  cases p <;> simp [inFlight]
  constructor
  · rintro rfl; exact ⟨rfl, rfl⟩
  · rintro ⟨rfl, rfl⟩; rfl

/-- The packs a run has stored, and the one it is storing: each was there before, is one the run started with, or
is made of blobs sent; and no blob is in two of the latter. -/
theorem stored_packs {c : Cfg Id} {w : World Id} {main : List (Op Id)} (hr : RunOk c w main)
    (hL : Ledger C (StartPack c)) (hf : Fresh C (StartPack c) (sends main))
    (hu : ∀ p, Op.up p ∈ main → p ∈ BMap.keys c.start.packs) {s : State Id} (h : Reachable c w main s) :
    ∃ news : List (Id × Pack Id), Ledger C (fun p bs => StartPack c p bs ∨ (p, bs) ∈ news) ∧
      (∀ e ∈ news, ∀ b ∈ e.2, b ∈ sends main) ∧
      ∀ q bs, (q, bs) ∈ s.world.repo.packs ∨ s.up = .busy (.pack q bs) →
        (q, bs) ∈ w.repo.packs ∨ StartPack c q bs ∨ (q, bs) ∈ news := by
  obtain ⟨news, hp⟩ := puts_run hr hf hu h
  have ha := hp.acct
  have hn := named hr.world h
  have hperm : ((news ++ (inFlight (s.pk .chunk) ++ inFlight (s.pk .tree))).flatMap Prod.snd ++
      (notYet (s.pk .chunk) ++ (notYet (s.pk .tree) ++ sends s.main))).Perm (sends main) := by
    refine List.Perm.trans ?_ ha.blobs
    rw [List.flatMap_append, List.flatMap_append, ← flight_hold (s.pk .chunk), ← flight_hold (s.pk .tree)]
    simp only [List.append_assoc]
    refine List.Perm.append_left _ (List.Perm.append_left _ ?_)
    exact List.perm_append_comm_assoc _ _ _
  have hmem : ∀ e, e ∈ news ++ (inFlight (s.pk .chunk) ++ inFlight (s.pk .tree)) →
      e ∈ news ∨ ∃ k, s.pk k = .sendIdx e.1 e.2 := by
    intro e he
    rcases List.mem_append.mp he with he | he
    · exact .inl he
    · rcases List.mem_append.mp he with he | he
      · exact .inr ⟨_, flight.mp he⟩
      · exact .inr ⟨_, flight.mp he⟩
  have hgood : ∀ e ∈ news ++ (inFlight (s.pk .chunk) ++ inFlight (s.pk .tree)), Good c e.1 e.2 := by
    intro e he
    rcases hmem e he with he | ⟨k, hk⟩
    · exact ha.good e he
    · exact hn.pk k _ _ (.inr hk)
  refine ⟨news ++ (inFlight (s.pk .chunk) ++ inFlight (s.pk .tree)), ?_, ?_, ?_⟩
  · refine hL.add (hf.of_perm hperm) (.refl _) ?_ ?_
    · intro e he
      rcases hmem e he with he | ⟨k, hk⟩
      · exact ha.kinds e he
      · exact ⟨ha.ne k _ _ (.inr hk), k, fun b hb => ha.hold k b (by rw [hk]; exact hb)⟩
    · have hg : ∀ p bs, StartPack c p bs ∨ (p, bs) ∈ news ++ (inFlight (s.pk .chunk) ++ inFlight (s.pk .tree)) →
          Good c p bs := by
        rintro p bs (h1 | h1)
        · exact h1.2
        · exact hgood _ h1
      exact fun p bs bs' h1 h2 => Good_unique hr.inj (hg p bs h1) (hg p bs' h2)
  · intro e he b hb
    exact hperm.subset (List.mem_append_left _ (List.mem_flatMap.mpr ⟨e, he, hb⟩))
  · intro q bs hq
    rcases hp.puts q bs hq with h1 | h1 | h1 | ⟨k, h1⟩
    · exact .inl h1
    · exact .inr (.inl h1)
    · exact .inr (.inr (List.mem_append_left _ h1))
    · refine .inr (.inr (List.mem_append_right _ ?_))
      cases k
      · exact List.mem_append_left _ (flight.mpr h1)
      · exact List.mem_append_right _ (flight.mpr h1)

end Backpak
