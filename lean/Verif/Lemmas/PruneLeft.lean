import Verif.Lemmas.Prune

/-!
# What a prune leaves when it is interrupted
-/

namespace Backpak

open Spec Pipeline

variable {Id : Type} [LinearOrder Id]

/-- Once the indexer has written its first file, the work-in-progress index is its own. -/
theorem wip_own {c : Cfg Id} {w : World Id} {main : List (Op Id)} (hr : RunOk c w main)
    (hne : c.start.isEmpty = false) {s : State Id} (h : Reachable c w main s) :
    (∃ x, s.ix = .persist x) ∨ ∀ x, s.world.cwd.wip = some x → Writes c (sends main) x := by
  induction h with
  | refl =>
    left
    simp only [init, hr.live, hne, and_self, if_true]
    exact ⟨_, rfl⟩
  | @tail s t h hstep ih =>
    have ha := acct hr.world hr.startSort hr.ne h
    have hother : (∀ y, s.ix ≠ .persist y) → ∀ x, s.world.cwd.wip = some x → Writes c (sends main) x :=
      fun hn => ih.resolve_left (fun ⟨y, hy⟩ => hn y hy)
    cases hstep with
    | ixPersist y hi _ =>
      refine .inr (fun x hx => ?_)
      simp only [Option.some.injEq] at hx
      subst hx
      rcases ha with hd | ⟨news, ha⟩
      · rw [hi] at hd; cases hd
      · exact ha.writes (by rw [hi]; rfl)
    | ixPersistLast y hi =>
      refine .inr (fun x hx => ?_)
      simp only [Option.some.injEq] at hx
      subst hx
      rcases ha with hd | ⟨news, ha⟩
      · rw [hi] at hd; cases hd
      · exact ha.writes (by rw [hi]; rfl)
    | packerIdx k id bs y hk hsp hi hn => exact .inl ⟨_, if_pos hr.live⟩
    | packerDup k id bs y hk hsp hi hn => exact .inr (hother (by simp [hi]))
    | ixEmpty y hi _ _ _ _ => exact .inr (hother (by simp [hi]))
    | ixClosed y hi _ _ _ _ => exact .inr (hother (by simp [hi]))
    | ixCopy y hi => exact .inr (hother (by simp [hi]))
    | ixUp y hi _ _ => exact .inr (hother (by simp [hi]))
    | upDrop i _ => exact ih.imp (fun h => h) (fun h x hx => h x (by cases i <;> exact hx))
    | upMove i _ _ => exact ih.imp (fun h => h) (fun h x hx => h x (by cases i <;> exact hx))
    | upDiscard i _ _ => exact ih.imp (fun h => h) (fun h x hx => h x (by cases i <;> exact hx))
    | join _ _ _ _ _ _ _ => exact .inr (fun x hx => by cases hx)
    | spawn _ _ | mainUp _ _ _ _ _ _ _ | mainSend _ _ _ _ _ _ | close _ _ | endPack _ _ _ _ _ _
    | packerExit _ _ _ _ _ _ | packerUp _ _ _ _ _ _ | upStore _ _ _ | upExit _ _ _ _ _ _ => exact ih

/-- While the indexes are the same, so is what can be found. -/
theorem has_same {C : Codec Id} {c : Cfg Id} {R R' : Repo Id} {ss : List (Blob Id)} (hS : Sound C R)
    (he : Effect c R R' ss) (hi : R'.indexes = R.indexes) {b : Blob Id} (h : Has C R' b) : Has C R b := by
  obtain ⟨h0, p, bs, h1, h2, h3⟩ := h
  rw [hi] at h1
  obtain ⟨cs, hc, hm⟩ := hS.present _ _ h1
  have := (BMap.get?_eq_some_iff he.psort).mpr (he.keep _ hc)
  rw [(BMap.get?_eq_some_iff he.psort).mpr h2] at this
  cases this
  exact ⟨h0, p, bs, h1, hc, h3⟩

variable {C : Codec Id} {env : CacheEnv Id} {ids : Ids Id} {cores : Nat} {w : World Id}
  {src : Source Id} {snaps : List (Snap Id)} {plan : Plan Id}

/-- What can be found at any instant of a prune's pipeline could be found before. -/
theorem Pruning.back {c : Cfg Id} {reach : List Id} (h : Pruning C ids cores w src plan c reach)
    (hP : PruneOk C env ids w src snaps) {s : State Id} (hs : Reachable c w plan.main s) {b : Blob Id}
    (hb : Has C s.world.repo b) : Has C w.repo b ∨ b = emptyBlob C := by
  have hsup : c.start.supersedes = BMap.keys w.repo.indexes := by rw [h.cfg]; exact h.sup
  rcases replace h.run hP.healthy.sound hsup h.ledger h.fresh h.new hs with ⟨h1, _⟩ | ⟨_, _, _, _, _, h1⟩
  · exact .inl (has_same hP.healthy.sound (effect h.run hs) h1 hb)
  · exact (h.old ((h1 b).mp hb)).2

/-- If the work-in-progress index supersedes the indexes there are, the prune has not uploaded its
own. -/
theorem Pruning.not_yet {c : Cfg Id} {reach : List Id} (h : Pruning C ids cores w src plan c reach)
    (hP : PruneOk C env ids w src snaps) {s : State Id} (hs : Reachable c w plan.main s) {x : Index Id}
    (hx : s.world.cwd.wip = some x) (hr : Replaces s.world x) : s.world.repo.indexes = w.repo.indexes := by
  have hne : c.start.isEmpty = false := by
    have := some_index hP.healthy hP.opens h.work
    rw [← h.sup] at this
    rw [h.cfg]
    simp [Index.isEmpty, this]
  by_cases hex : ∃ y, s.ix = .exited (some y)
  · obtain ⟨y, hy⟩ := hex
    have hw := (wip_own h.run hne hs).resolve_left (by simp [hy]) x hx
    rcases (effect h.run hs).idx with h1 | ⟨z, news, hn⟩
    · exact h1
    · exfalso
      refine (h.new z hn.writes).1 ?_
      have h1 : x.supersedes = BMap.keys w.repo.indexes := by
        rw [hw.sup, h.cfg]; exact h.sup
      rw [← h1, hr.2, hn.put]
      exact BMap.keys_insert_mem.mpr (.inl rfl)
  · exact (filed h.run.live hs).notYet (fun y hy => hex ⟨y, hy⟩)

/-- What a prune leaves when its pipeline is interrupted, the next can take up. -/
theorem Pruning.left {c : Cfg Id} {reach : List Id} (h : Pruning C ids cores w src plan c reach)
    (hP : PruneOk C env ids w src snaps) {s : State Id} (hs : Reachable c w plan.main s) :
    PruneLeft C ids s.world := by
  have hids : c.ids = ids := by rw [h.cfg]
  have hn := named h.run.world hs
  have he := effect h.run hs
  have hgood : ∀ p bs, (p, bs) ∈ s.world.cwd.packs ∨ (p, bs) ∈ s.world.repo.packs → Good c p bs := by
    rintro p bs (h1 | h1)
    · exact hn.cwd _ _ h1
    · exact hn.repo _ _ h1
  have hgood0 : ∀ p bs, (p, bs) ∈ w.cwd.packs ∨ (p, bs) ∈ w.repo.packs → Good c p bs := by
    rintro p bs (h1 | h1)
    · exact h.run.world.cwd _ _ h1
    · exact h.run.world.repo _ _ h1
  have hstart0 : ∀ p ∈ BMap.keys c.start.packs, Kept w p := by
    intro p hp
    rcases h.run.start p hp with h1 | h1
    · exact .inr h1
    · obtain ⟨here, hm, hh, _⟩ := h.main
      rw [hm] at h1
      rcases List.mem_append.mp h1 with h1 | h1
      · obtain ⟨q, hq, heq⟩ := List.mem_map.mp h1
        cases heq
        exact .inl (hh _ hq)
      · obtain ⟨q, _, heq⟩ := List.mem_map.mp h1
        cases heq
  have hkept := Pipeline.wip h.run.live
    (fun x hx p hp => by
      obtain ⟨m, hm⟩ := BMap.mem_keys_iff.mp hp
      obtain ⟨bs, hb, _⟩ := hP.leftover.there x p m hx (BMap.mem_of_get? hm)
      exact hb.imp BMap.mem_keys_of_mem BMap.mem_keys_of_mem) hstart0 hs
  have hneeded : s.world.repo.indexes = w.repo.indexes → ∀ b : Blob Id,
      (Needed C w.repo b.id ∧ (b = emptyBlob C ∨ Has C w.repo b)) →
      Needed C s.world.repo b.id ∧ (b = emptyBlob C ∨ Has C s.world.repo b) := by
    intro hi b hb
    have hmono := (sound_same hP.healthy.sound he hi).2
    refine ⟨(needed_kept hP.healthy.sound (fun b hb => .inl (has_same hP.healthy.sound he hi hb)) he.snaps
      (fun j sn hm => ?_) hb.1).1, hb.2.imp (fun e => e) (hmono b)⟩
    obtain ⟨d, hd⟩ := hP.healthy.readable j sn hm
    exact ⟨d, has_mono_holds hmono hd⟩
  -- what the packs of the index are
  have hsplit : ∀ {x : Index Id} {news : List (Id × Pack Id)} {p : Id} {bs : Pack Id},
      (∀ e ∈ news, Good c e.1 e.2) →
      (x.packs.Perm (c.start.packs ++ news.map (fun e => (e.1, Pack.manifestOf e.2)))) → Good c p bs →
      (p, Pack.manifestOf bs) ∈ x.packs → StartPack c p bs ∨ (p, bs) ∈ news := by
    intro x news p bs hg hp hb hm
    rcases List.mem_append.mp (hp.subset hm) with hm | hm
    · exact .inl ⟨hm, hb⟩
    · obtain ⟨⟨q, cs⟩, he, heq⟩ := List.mem_map.mp hm
      simp only [Prod.mk.injEq] at heq
      obtain ⟨rfl, _⟩ := heq
      have := Good_unique h.run.inj hb (hg _ he)
      subst this
      exact .inr he
  have hwip0 : ∀ x, w.cwd.wip = some x → s.world.cwd.wip = some x → ∀ p bs, WipPack s.world p bs → WipPack w p bs := by
    rintro x h1 h2 p bs ⟨y, h3, h4, h5⟩
    rw [h2] at h3
    cases h3
    obtain ⟨cs, h6, h7⟩ := hP.leftover.there _ _ _ h1 h4
    have := Good_unique h.run.inj (hgood p bs h5) (hgood0 p cs h6)
    subst this
    exact ⟨_, h1, h4, h6⟩
  refine ⟨fun p bs h1 => by rw [← hids]; exact (hn.cwd p bs h1).1, ?_, ?_, ?_, ?_⟩
  · intro x p m hx hm
    obtain ⟨cs, hg, rfl⟩ : ∃ cs, Good c p cs ∧ m = Pack.manifestOf cs := by
      rcases wip_from h.run hs x hx with h1 | h1
      · obtain ⟨bs, hb, rfl⟩ := hP.leftover.there x p m h1 hm
        exact ⟨bs, hgood0 p bs hb, rfl⟩
      · obtain ⟨news, rest, x3, x4, x5, x6⟩ := h1.packs
        rcases List.mem_append.mp (x6.subset hm) with hm | hm
        · exact h.run.startGood p m hm
        · obtain ⟨⟨q, cs⟩, he, heq⟩ := List.mem_map.mp hm
          cases heq
          exact ⟨cs, x4 _ he, rfl⟩
    rcases hkept.wip x hx p (BMap.mem_keys_of_mem hm) with hk | hk
    · obtain ⟨bs, hb⟩ := BMap.mem_keys_iff.mp hk
      have hb := BMap.mem_of_get? hb
      have := Good_unique h.run.inj hg (hn.cwd _ _ hb)
      subst this
      exact ⟨cs, .inl hb, rfl⟩
    · obtain ⟨bs, hb⟩ := BMap.mem_keys_iff.mp hk
      have hb := BMap.mem_of_get? hb
      have := Good_unique h.run.inj hg (hn.repo _ _ hb)
      subst this
      exact ⟨cs, .inr hb, rfl⟩
  · intro x hx hr
    have hi := h.not_yet hP hs hx hr
    rcases wip_from h.run hs x hx with h1 | h1
    · exact hP.leftover.sorted x h1 ⟨hr.1, by rw [← hi]; exact hr.2⟩
    · exact h1.sorted
  · intro x hx hr
    have hi := h.not_yet hP hs hx hr
    rcases wip_from h.run hs x hx with h1 | h1
    · exact (hP.leftover.ledger x h1 ⟨hr.1, by rw [← hi]; exact hr.2⟩).mono (hwip0 x h1 hx)
    · obtain ⟨news, rest, x3, x4, x5, x6⟩ := h1.packs
      refine (h.ledger.add (h.fresh.of_perm x3) (.refl _) x5 ?_).mono ?_
      · have : ∀ p bs, StartPack c p bs ∨ (p, bs) ∈ news → Good c p bs := by
          rintro p bs (h1 | h1)
          · exact h1.2
          · exact x4 _ h1
        exact fun p bs bs' h1 h2 => Good_unique h.run.inj (this p bs h1) (this p bs' h2)
      · rintro p bs ⟨y, h3, h4, h5⟩
        rw [hx] at h3
        cases h3
        exact hsplit x4 x6 (hgood p bs h5) h4
  · intro x hx hr p bs b hb hbs
    have hi := h.not_yet hP hs hx hr
    refine hneeded hi b ?_
    rcases wip_from h.run hs x hx with h1 | h1
    · exact hP.leftover.needed x h1 ⟨hr.1, by rw [← hi]; exact hr.2⟩ p bs b (hwip0 x h1 hx p bs hb) hbs
    · obtain ⟨news, rest, x3, x4, x5, x6⟩ := h1.packs
      obtain ⟨y, h3, h4, h5⟩ := hb
      rw [hx] at h3
      cases h3
      rcases hsplit x4 x6 (hgood p bs h5) h4 with h6 | h6
      · exact h.kept p bs b h6 hbs
      · exact h.needed b (x3.subset (List.mem_append_left _ (List.mem_flatMap.mpr ⟨_, h6, hbs⟩)))

/-- Whenever a prune is interrupted, the next can start. -/
theorem Pruning.next {c : Cfg Id} {reach : List Id} (h : Pruning C ids cores w src plan c reach)
    (hP : PruneOk C env ids w src snaps) {w' : World Id}
    (hi : Instant (liveCfg ids cores plan.start) w plan.main plan.posts w') :
    Healthy C ids w'.repo ∧ PruneLeft C ids w' ∧ w'.repo.snapshots = w.repo.snapshots ∧
    (∀ i sn d, (i, sn) ∈ w.repo.snapshots → Holds C w.repo sn.tree d → Holds C w'.repo sn.tree d) ∧
    ∀ b, Has C w'.repo b → Has C w.repo b ∨ b = emptyBlob C := by
  cases hi with
  | during s hs =>
    have hs := h.reachable hs
    obtain ⟨h1, h2, h3, _⟩ := h.now hP hs
    exact ⟨h1, h.left hP hs, h2, h3, fun b => h.back hP hs⟩
  | after s done rest hs hj hd =>
    have hw : s.world.cwd.wip = none := C14.joined_wip hs hj
    have hs := h.reachable hs
    obtain ⟨h1, h2, h3, _⟩ := h.now hP hs
    obtain ⟨x, news, _, _, ht, _⟩ := h.later hP hs hj hd
    refine ⟨ht.healthy h1, ⟨(h.left hP hs).names, ?_, ?_, ?_, ?_⟩, ht.snaps.trans h2,
      fun i sn d hm hh => has_mono_holds (fun b => (ht.has b).mpr) (h3 i sn d hm hh),
      fun b hb => h.back hP hs ((ht.has b).mp hb)⟩
    · intro x p m hx; simp only [hw] at hx; cases hx
    · intro x hx; simp only [hw] at hx; cases hx
    · intro x hx; simp only [hw] at hx; cases hx
    · intro x hx; simp only [hw] at hx; cases hx

end Backpak
