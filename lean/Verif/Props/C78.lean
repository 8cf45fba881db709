import Verif.Props.C27

/-!
# C78: packs that no index lists

No command removes one. What a prune removes some index listed. After rebuild-index and a prune that both ran to their
end there are none.
-/

namespace Backpak.C78

open Spec Pipeline

variable {Id : Type} [LinearOrder Id]

/-! ## They stay -/

/-- The threads of a command remove no pack. -/
theorem threads_keep {c : Cfg Id} {w : World Id} {main : List (Op Id)} {s : State Id} (h : Reachable c w main s)
    {p : Id} (hp : p ∈ BMap.keys w.repo.packs) : p ∈ BMap.keys s.world.repo.packs := by
  induction h with
  | refl => exact hp
  | tail _ hs ih =>
    cases hs with
    | upStore i hu hl => exact keys_putItem ih
    | upMove i hu hl => exact keys_putItem ih
    | _ => exact ih

/-- What follows removes those it is told to. -/
theorem posts_keep {ids : Ids Id} {p : Id} (ops : List (Post Id)) (hn : Post.rmPack p ∉ ops) (R : Repo Id)
    (hp : p ∈ BMap.keys R.packs) : p ∈ BMap.keys (ops.foldl (applyPost ids) R).packs := by
  induction ops generalizing R with
  | nil => exact hp
  | cons o ops ih =>
    refine ih (fun h => hn (List.mem_cons_of_mem _ h)) _ ?_
    cases o with
    | putSnap s => exact hp
    | rmIndex i => exact hp
    | rmPack q =>
      have hne : p ≠ q := fun e => hn (by rw [e]; exact List.mem_cons_self)
      exact BMap.keys_erase_mem.mpr ⟨hne, hp⟩

theorem instant_keep {c : Cfg Id} {w w' : World Id} {main : List (Op Id)} {post : List (Post Id)}
    (h : Instant c w main post w') {p : Id} (hn : Post.rmPack p ∉ post) (hp : p ∈ BMap.keys w.repo.packs) :
    p ∈ BMap.keys w'.repo.packs := by
  cases h with
  | during s hs => exact threads_keep hs hp
  | after s done rest hs _ he =>
    exact posts_keep done (fun hm => hn (by rw [he]; exact List.mem_append_left _ hm)) _ (threads_keep hs hp)

/-- A prune removes only packs that some index lists. -/
theorem prune_posts {C : Codec Id} {env : CacheEnv Id} {w : World Id} {src : Source Id} {snaps : List (Snap Id)}
    {dry : Bool} {plan : Plan Id} (hs : BMap.Sorted w.repo.indexes) (ho : Opens w.repo src)
    (hp : prunePlan C env w src snaps dry = .ok (some plan)) {p : Id} (h : Post.rmPack p ∈ plan.posts) :
    ∃ m, Listed w.repo.indexes p m := by
  obtain ⟨sfs, _, _, _, _, _, _, _, _, s, _, _, hpost⟩ := prunePlan_ok hp
  unfold Plan.posts at h
  rw [hpost] at h
  dsimp only at h
  split at h
  · cases h
  · unfold prunePosts at h
    rcases List.mem_append.mp h with h | h
    · obtain ⟨_, _, h⟩ := List.mem_map.mp h
      cases h
    · obtain ⟨q, hq, he⟩ := List.mem_map.mp h
      cases he
      obtain ⟨⟨p, m⟩, hm, rfl⟩ := List.mem_map.mp hq
      obtain ⟨files, hf, hb⟩ := ho.master
      refine ⟨m, (listed_perm hf p m).mp ?_⟩
      exact C17.packs_sound files (((hf.map Prod.fst).nodup_iff).mpr hs.nodup) _ hb p m (List.mem_filter.mp hm).1

/-- What commands do: a backup, a copy from another repository, filter-snapshot or a prune, dry or not, that is stopped
anywhere or runs to its end; one whose main thread fails after having sent anything; snapshots are forgotten; the
index is rebuilt, or would be. -/
inductive Did (C : Codec Id) (cut : Bytes → Nat) (ids : Ids Id) : World Id → World Id → Prop
  | backup {c : Cfg Id} {w w' src snaps a plan} : backupPlan C cut w src snaps a = .ok plan →
      Instant c w plan.main plan.posts w' → Did C cut ids w w'
  | failing {c : Cfg Id} {w main s} : Reachable c w main s → Did C cut ids w s.world
  | copy {c : Cfg Id} {w w' env from_ dst snaps filter dry plan} :
      copyPlan C env w from_ dst snaps filter dry = .ok plan →
      Instant c w plan.main plan.posts w' → Did C cut ids w w'
  | filter {c : Cfg Id} {w w' src target filter a plan} : filterPlan C src target filter a = .ok plan →
      Instant c w plan.main plan.posts w' → Did C cut ids w w'
  | forget {w : World Id} {snapshots} : Did C cut ids w ⟨{ w.repo with snapshots := snapshots }, w.cwd⟩
  | rebuild {w w' live} : Rebuild.Instant ids live w w' → Did C cut ids w w'
  | prune {c : Cfg Id} {w w' env src snaps dry plan} : BMap.Sorted w.repo.indexes → Opens w.repo src →
      prunePlan C env w src snaps dry = .ok (some plan) →
      Instant c w plan.main plan.posts w' → Did C cut ids w w'

theorem rebuild_keeps {ids : Ids Id} {live : Bool} {w w' : World Id} (h : Rebuild.Instant ids live w w') :
    w'.repo.packs = w.repo.packs := by
  have key : ∀ s, Rebuild.Reachable ids live w s → s.world.repo.packs = w.repo.packs := by
    intro s hs
    induction hs with
    | refl => rfl
    | tail _ hs ih => cases hs <;> exact ih
  cases h with
  | during s hs => exact key s hs
  | after s x done rest hs _ he =>
    have : ∀ (ops : List (Post Id)) (R : Repo Id), (∀ o ∈ ops, ∃ i, o = .rmIndex i) →
        (ops.foldl (applyPost ids) R).packs = R.packs := by
      intro ops
      induction ops with
      | nil => exact fun _ _ => rfl
      | cons o ops ih =>
        intro R ho
        obtain ⟨i, rfl⟩ := ho o List.mem_cons_self
        rw [List.foldl_cons, ih _ (fun o' h => ho o' (List.mem_cons_of_mem _ h))]
        rfl
    dsimp only
    rw [this done _ ?_, key s hs]
    intro o ho
    have hm : o ∈ Rebuild.posts live w.repo := by rw [he]; exact List.mem_append_left _ ho
    unfold Rebuild.posts at hm
    split at hm
    · obtain ⟨i, _, rfl⟩ := List.mem_map.mp hm
      exact ⟨i, rfl⟩
    · cases hm

/-- No command removes a pack that no index lists. -/
theorem stays {C : Codec Id} {cut : Bytes → Nat} {ids : Ids Id} {w w' : World Id} (h : Did C cut ids w w') {p : Id}
    (hp : p ∈ BMap.keys w.repo.packs) (hl : ∀ m, ¬ Listed w.repo.indexes p m) : p ∈ BMap.keys w'.repo.packs := by
  cases h with
  | @backup c w w' src snaps a plan h1 h2 =>
    refine instant_keep h2 (fun hm => ?_) hp
    obtain ⟨_, _, _, _, _, _, _, _, _, _, _, hpost⟩ := plan_ok h1
    unfold Plan.posts at hm
    split at hm
    · rename_i l hl'
      rcases post_cases (hpost ▸ hl') with rfl | ⟨_, rfl⟩
      · cases hm
      · simp at hm
    · cases hm
  | failing h1 => exact threads_keep h1 hp
  | @copy c w w' env from_ dst snaps filter dry plan h1 h2 =>
    refine instant_keep h2 (fun hm => ?_) hp
    unfold copyPlan at h1
    repeat' (first | split at h1 | dsimp only at h1)
    all_goals first | cases h1 | skip
    all_goals
      simp [Plan.posts] at hm
  | @filter c w w' src target filter a plan h1 h2 =>
    refine instant_keep h2 (fun hm => ?_) hp
    unfold filterPlan at h1
    repeat' (split at h1)
    all_goals first | cases h1 | skip
    all_goals
      simp [Plan.posts] at hm
  | forget => exact hp
  | rebuild h1 => rw [rebuild_keeps h1]; exact hp
  | prune h1 h2 h3 h4 =>
    refine instant_keep h4 (fun hm => ?_) hp
    obtain ⟨m, hm⟩ := prune_posts h1 h2 h3 hm
    exact hl m hm

/-- So such a pack is there for ever, until an index lists it. -/
theorem stays_on {C : Codec Id} {cut : Bytes → Nat} {ids : Ids Id} {w w' : World Id} {p : Id}
    (hp : p ∈ BMap.keys w.repo.packs)
    (h : Relation.ReflTransGen (fun u v => Did C cut ids u v ∧ ∀ m, ¬ Listed u.repo.indexes p m) w w') :
    p ∈ BMap.keys w'.repo.packs := by
  induction h with
  | refl => exact hp
  | tail _ hs ih => exact stays hs.1 ih hs.2

/-! ## Nothing is left unlisted by a command that has finished -/

/-- Where a pack comes from: the repository at the start, or it is in the index, or on its way there. -/
def Accounted (w0 : World Id) (s : State Id) (p : Id) : Prop :=
  s.ix = .dead ∨ p ∈ BMap.keys w0.repo.packs ∨ p ∈ BMap.keys (idxPacks s.ix) ∨ ∃ k bs, s.pk k = .sendIdx p bs

structure Traced (c : Cfg Id) (w0 : World Id) (s : State Id) : Prop where
  repo : ∀ p ∈ BMap.keys s.world.repo.packs, Accounted w0 s p
  busy : ∀ p bs, s.up = .busy (.pack p bs) → Accounted w0 s p
  main : ∀ p, .up p ∈ s.main → p ∈ BMap.keys c.start.packs
  start : s.ix = .dead ∨ ∀ p ∈ BMap.keys c.start.packs, p ∈ BMap.keys (idxPacks s.ix)

theorem traced_step {c : Cfg Id} {w0 : World Id} {s t : State Id} (hc : Ctl s) (h : Traced c w0 s) (hs : Step c s t) :
    Traced c w0 t := by
  obtain ⟨h1, h2, h3, h4⟩ := h
  have move : ∀ {ix pk}, (s.ix = .dead → ix = .dead) → (ix = .dead ∨ ∀ p ∈ BMap.keys (idxPacks s.ix), p ∈ BMap.keys (idxPacks ix)) →
      (∀ k p bs, s.pk k = .sendIdx p bs → ix = .dead ∨ p ∈ BMap.keys (idxPacks ix) ∨ ∃ k bs, pk k = .sendIdx p bs) →
      ∀ {world main closed joined spawned up} (p : Id), Accounted w0 s p →
        Accounted w0 ⟨world, main, closed, joined, spawned, pk, ix, up⟩ p := by
    rintro ix pk hd hi hk world main closed joined spawned up p (h | h | h | ⟨k, bs, h⟩)
    · exact .inl (hd h)
    · exact .inr (.inl h)
    · rcases hi with hi | hi
      · exact .inl hi
      · exact .inr (.inr (.inl (hi p h)))
    · rcases hk k p bs h with h | h | h
      · exact .inl h
      · exact .inr (.inr (.inl h))
      · exact .inr (.inr (.inr h))
  have same : ∀ {world main closed joined spawned up} (p : Id), Accounted w0 s p →
        Accounted w0 ⟨world, main, closed, joined, spawned, s.pk, s.ix, up⟩ p :=
    move id (.inr fun _ h => h) (fun k p bs h => .inr (.inr ⟨k, bs, h⟩))
  have upd : ∀ {k v world main closed joined spawned up} (p : Id), (∀ q bs, s.pk k ≠ .sendIdx q bs) → Accounted w0 s p →
        Accounted w0 ⟨world, main, closed, joined, spawned, Function.update s.pk k v, s.ix, up⟩ p := by
    intro k v world main closed joined spawned up p hk
    refine move id (.inr fun _ h => h) (fun k' p bs h => .inr (.inr ⟨k', bs, ?_⟩)) p
    rw [Function.update_of_ne (fun e => by subst e; exact hk p bs h)]
    exact h
  have store : ∀ i, s.up = .busy i → ∀ p ∈ BMap.keys (putItem s.world.repo i).packs, Accounted w0 s p := by
    intro i hu p hp
    cases i with
    | pack id bs =>
      rcases BMap.keys_insert_mem.mp hp with rfl | hp
      · exact h2 _ _ hu
      · exact h1 p hp
    | index id x => exact h1 p hp
  cases hs with
  | spawn _ _ => exact ⟨fun p hp => same p (h1 p hp), fun p bs hu => same p (h2 p bs hu), h3, h4⟩
  | mainUp q bs rest hm hsp hu hg =>
    refine ⟨fun p hp => same p (h1 p hp), fun p bs' he => ?_, fun p hp => h3 p (by rw [hm]; exact List.mem_cons_of_mem _ hp), h4⟩
    cases he
    have := h3 q (by rw [hm]; exact List.mem_cons_self)
    rcases h4 with h4 | h4
    · exact .inl h4
    · exact .inr (.inr (.inl (h4 q this)))
  | mainSend b cur rest hm hsp hp =>
    have hk : ∀ q bs, s.pk b.kind ≠ .sendIdx q bs := by rw [hp]; simp
    exact ⟨fun p h => upd p hk (h1 p h), fun p bs h => upd p hk (h2 p bs h),
      fun p h => h3 p (by rw [hm]; exact List.mem_cons_of_mem _ h), h4⟩
  | close _ _ => exact ⟨fun p hp => same p (h1 p hp), fun p bs hu => same p (h2 p bs hu), h3, h4⟩
  | endPack k cur hsp hp hne ha =>
    have hk : ∀ q bs, s.pk k ≠ .sendIdx q bs := by rw [hp]; simp
    exact ⟨fun p h => upd p hk (h1 p h), fun p bs h => upd p hk (h2 p bs h), h3, h4⟩
  | packerExit k cur hsp hp _ _ =>
    have hk : ∀ q bs, s.pk k ≠ .sendIdx q bs := by rw [hp]; simp
    exact ⟨fun p h => upd p hk (h1 p h), fun p bs h => upd p hk (h2 p bs h), h3, h4⟩
  | packerUp k id bs hp hsp hu =>
    have hk : ∀ q bs, s.pk k ≠ .sendIdx q bs := by rw [hp]; simp
    refine ⟨fun p h => upd p hk (h1 p h), fun p bs' h => ?_, h3, h4⟩
    cases h
    exact .inr (.inr (.inr ⟨k, bs, Function.update_self _ _ _⟩))
  | packerIdx k id bs x hp hsp hi hn =>
    have hx : idxPacks (if c.live then .persist (addPack x id bs) else .recv (addPack x id bs)) =
        BMap.insert id (Pack.manifestOf bs) x.packs := by split <;> rfl
    have hx0 : idxPacks s.ix = x.packs := by rw [hi]; rfl
    have hmono : ∀ p ∈ BMap.keys (idxPacks s.ix), p ∈ BMap.keys
        (idxPacks (if c.live then .persist (addPack x id bs) else .recv (addPack x id bs))) := by
      intro p hp
      rw [hx]
      rw [hx0] at hp
      exact BMap.keys_insert_mem.mpr (.inr hp)
    have go := @move (if c.live then .persist (addPack x id bs) else .recv (addPack x id bs))
      (Function.update s.pk k (.recv [])) (by rw [hi]; simp) (.inr hmono) (by
        intro k' p bs' h
        by_cases e : k' = k
        · subst e
          rw [hp] at h
          cases h
          rw [hx]
          exact .inr (.inl (BMap.keys_insert_mem.mpr (.inl rfl)))
        · exact .inr (.inr ⟨k', bs', by rw [Function.update_of_ne e]; exact h⟩))
    refine ⟨fun p h => go p (h1 p h), fun p bs h => go p (h2 p bs h), h3, .inr fun p h => ?_⟩
    rcases h4 with h4 | h4
    · rw [hi] at h4; cases h4
    · exact hmono p (h4 p h)
  | packerDup k id bs x hp hsp hi hn => exact ⟨fun p _ => .inl rfl, fun p bs _ => .inl rfl, h3, .inl rfl⟩
  | ixPersist x hi _ =>
    have go := @move (.recv x) s.pk (by rw [hi]; simp) (.inr (by rw [hi]; exact fun _ h => h))
      (fun k p bs h => .inr (.inr ⟨k, bs, h⟩))
    refine ⟨fun p h => go p (h1 p h), fun p bs h => go p (h2 p bs h), h3, ?_⟩
    rw [hi] at h4; exact .inr (h4.resolve_left (by simp))
  | ixEmpty x hi _ _ _ he =>
    have hnil : idxPacks s.ix = [] := by
      rw [hi]
      exact (show x.supersedes = [] ∧ x.packs = [] by simpa [Index.isEmpty] using he).2
    have go := @move (.exited none) s.pk (by rw [hi]; simp) (.inr (by rw [hnil]; exact fun _ h => h))
      (fun k p bs h => .inr (.inr ⟨k, bs, h⟩))
    refine ⟨fun p h => go p (h1 p h), fun p bs h => go p (h2 p bs h), h3, .inr fun p h => ?_⟩
    have := h4.resolve_left (by rw [hi]; simp) p h
    rw [hnil] at this
    exact this
  | ixClosed x hi _ _ _ _ =>
    have hx : idxPacks (if c.live then .copy x else .persistLast x) = idxPacks s.ix := by rw [hi]; split <;> rfl
    have go := @move (if c.live then .copy x else .persistLast x) s.pk (by rw [hi]; simp) (.inr (by rw [hx]; exact fun _ h => h))
      (fun k p bs h => .inr (.inr ⟨k, bs, h⟩))
    refine ⟨fun p h => go p (h1 p h), fun p bs h => go p (h2 p bs h), h3, .inr fun p h => ?_⟩
    dsimp only
    rw [hx]
    exact h4.resolve_left (by rw [hi]; simp) p h
  | ixPersistLast x hi =>
    have go := @move (.copy x) s.pk (by rw [hi]; simp) (.inr (by rw [hi]; exact fun _ h => h))
      (fun k p bs h => .inr (.inr ⟨k, bs, h⟩))
    refine ⟨fun p h => go p (h1 p h), fun p bs h => go p (h2 p bs h), h3, ?_⟩
    rw [hi] at h4; exact .inr (h4.resolve_left (by simp))
  | ixCopy x hi =>
    have go := @move (.sendUp x) s.pk (by rw [hi]; simp) (.inr (by rw [hi]; exact fun _ h => h))
      (fun k p bs h => .inr (.inr ⟨k, bs, h⟩))
    refine ⟨fun p h => go p (h1 p h), fun p bs h => go p (h2 p bs h), h3, ?_⟩
    rw [hi] at h4; exact .inr (h4.resolve_left (by simp))
  | ixUp x hi _ hu =>
    have go := @move (.exited (some x)) s.pk (by rw [hi]; simp) (.inr (by rw [hi]; exact fun _ h => h))
      (fun k p bs h => .inr (.inr ⟨k, bs, h⟩))
    refine ⟨fun p h => go p (h1 p h), fun p bs h => (by cases h), h3, ?_⟩
    rw [hi] at h4; exact .inr (h4.resolve_left (by simp))
  | upStore i hu _ => exact ⟨fun p hp => same p (store i hu p hp), fun p bs h => (by cases h), h3, h4⟩
  | upDrop i hu => exact ⟨fun p hp => same p (h1 p hp), fun p bs h => (by cases h), h3, h4⟩
  | upMove i hu _ => exact ⟨fun p hp => same p (store i hu p hp), fun p bs h => (by cases h), h3, h4⟩
  | upDiscard i hu hd => exact ⟨fun p hp => same p (h1 p hp), fun p bs h => (by cases h), h3, h4⟩
  | upExit hu _ _ _ _ _ => exact ⟨fun p hp => same p (h1 p hp), fun p bs h => (by cases h), h3, h4⟩
  | join _ _ _ _ _ _ _ => exact ⟨fun p hp => same p (h1 p hp), fun p bs hu => same p (h2 p bs hu), h3, h4⟩

theorem traced {c : Cfg Id} {w : World Id} {main : List (Op Id)} {s : State Id}
    (hm : ∀ p, .up p ∈ main → p ∈ BMap.keys c.start.packs) (h : Reachable c w main s) : Traced c w s := by
  refine reach_induct' (P := Traced c w) ?_ (fun _ _ hc hd hstep => traced_step hc hd hstep) h
  refine ⟨fun p hp => .inr (.inl hp), fun p bs hu => (by cases hu), hm, .inr fun p hp => ?_⟩
  have : idxPacks (init c w main).ix = c.start.packs := by
    unfold init
    dsimp only
    split <;> rfl
  rw [this]
  exact hp

/-- When the threads have been joined, every pack of the repository was there before or is in the index. -/
theorem nothing_more {c : Cfg Id} {w : World Id} {main : List (Op Id)} {s : State Id}
    (hm : ∀ p, .up p ∈ main → p ∈ BMap.keys c.start.packs) (h : Reachable c w main s) (hj : s.joined = true) :
    ∀ p ∈ BMap.keys s.world.repo.packs, p ∈ BMap.keys w.repo.packs ∨
      ∃ x, s.ix = .exited (some x) ∧ p ∈ BMap.keys x.packs := by
  intro p hp
  have hc := ctl h
  obtain ⟨ox, hix⟩ := hc.upExit (hc.joinedUp hj)
  have hex := hc.ixLate (by rw [hix]; rfl)
  rcases (traced hm h).repo p hp with h | h | h | ⟨k, bs, h⟩
  · rw [hix] at h; cases h
  · exact .inl h
  · rw [hix] at h
    cases ox with
    | none => cases h
    | some x => exact .inr ⟨x, hix, h⟩
  · rw [hex k] at h; cases h

variable {C : Codec Id} {env : CacheEnv Id} {ids : Ids Id} {cores : Nat} {src : Source Id} {snaps : List (Snap Id)}
  {plan : Plan Id}

/-- What a finished prune leaves unlisted was there before and unlisted then. -/
theorem prune_lists (w w' : World Id) (hP : PruneOk C env ids w src snaps) (hN : PruneNoClash ids cores w plan)
    (hp : prunePlan C env w src snaps false = .ok (some plan))
    (h : Finished (liveCfg ids cores plan.start) w plan.main plan.posts w') (p : Id)
    (hk : p ∈ BMap.keys w'.repo.packs) :
    (∃ m, Listed w'.repo.indexes p m) ∨ p ∈ BMap.keys w.repo.packs ∧ ∀ m, ¬ Listed w.repo.indexes p m := by
  have hleft := (C26.left hP hN hp h).packs
  by_cases hl : ∃ m, Listed w.repo.indexes p m
  · obtain ⟨m, hm⟩ := hl
    exact .inl ⟨m, hleft p m hm hk⟩
  rw [not_exists] at hl
  cases h with
  | mk s hs hj =>
    obtain ⟨c, reach, hpr⟩ := pruning hP hN hp
    have hids : c.ids = ids := by rw [hpr.cfg]
    have hr := hpr.reachable hs
    obtain ⟨x, news, hn, hdis, ht, _⟩ := hpr.later hP hr hj (done := plan.posts) (rest := []) (List.append_nil _).symm
    have hgone := gone (ids := ids) plan.posts s.world.repo (by
      rw [hpr.posts, prunePosts]
      intro o ho sn
      rcases List.mem_append.mp ho with ho | ho <;> obtain ⟨_, _, rfl⟩ := List.mem_map.mp ho <;> simp)
    have hks : p ∈ BMap.keys s.world.repo.packs := by
      by_contra hne
      exact hgone.2 p (.inr hne) hk
    have hm : ∀ q, .up q ∈ plan.main → q ∈ BMap.keys c.start.packs := by
      intro q hq
      obtain ⟨sfs, known, here, new, r, _, h2, _, h4, sd, _, h6, _⟩ := prunePlan_ok hp
      rw [h6] at hq
      simp only [Bool.false_eq_true, if_false, List.mem_append, List.mem_map, reduceCtorEq, and_false, exists_false,
        or_false, Op.up.injEq, exists_eq_right] at hq
      rcases prune_start hP.healthy hP.opens h2 h4 with ⟨_, rfl⟩ | ⟨_, _, rfl, _, _⟩
      · cases hq
      · rw [hpr.cfg]
        exact BMap.get?_isSome_iff.mp (List.mem_filter.mp hq).2
    rcases nothing_more hm hr hj p hks with h1 | ⟨y, hy, h1⟩
    · exact .inr ⟨h1, hl⟩
    · left
      have hput := (filed (by rw [hpr.cfg]) hr).put y hy (by
        have := (ctl hr).joinedUp hj
        rw [this]; simp)
      have hxy : x = y := by
        have hmem : (c.ids.indexId x, x) ∈ s.world.repo.indexes := by
          rw [hn.put]
          exact (BMap.mem_insert_iff hP.healthy.indexes_sorted).mpr (.inl ⟨rfl, rfl⟩)
        rw [hput] at hmem
        rcases (BMap.mem_insert_iff hP.healthy.indexes_sorted).mp hmem with ⟨_, e⟩ | ⟨_, e⟩
        · exact e
        · exact absurd (BMap.mem_keys_of_mem e) (hpr.new x hn.writes).1
      subst hxy
      obtain ⟨⟨q, m⟩, hq, rfl⟩ := List.mem_map.mp h1
      exact ⟨m, (ht.sole.listed ht.sound.indexes_sorted _ m).mpr hq⟩

/-! ## Getting rid of them -/

/-- After rebuild-index and a prune that have run to their end, every pack in the repository is listed, and holds only
blobs that some snapshot needs. No two packs may share a blob, or rebuild-index makes the repository unusable
(`C28.orphan_bricks`). -/
theorem regained_partial {w u w' : World Id} (hH : Healthy C ids w.repo) (hL : Leftover C ids w)
    (hnew : C28.NewName ids w.repo) (hG : C28.AllGood C w) (h1 : Rebuild.Finished ids true w u)
    (hE : ∀ x, ¬ Has C u.repo ⟨x, C.emptyId, .chunk⟩) (hc : C33.EnvOk env) (ho : Opens u.repo src)
    (hs : ∀ i s, (i, s) ∈ u.repo.snapshots ↔ (s, i) ∈ snaps) :
    (∀ plan, PruneNoClash ids cores u plan → prunePlan C env u src snaps false = .ok (some plan) →
      Finished (liveCfg ids cores plan.start) u plan.main plan.posts w' →
      ∀ p ∈ BMap.keys w'.repo.packs, ∃ m, Listed w'.repo.indexes p m ∧ ∀ e ∈ m, Needed C w'.repo e.id) ∧
    (prunePlan C env u src snaps false = .ok none →
      ∀ p ∈ BMap.keys u.repo.packs, ∃ m, Listed u.repo.indexes p m ∧ ∀ e ∈ m, Needed C u.repo e.id) := by
  obtain ⟨a1, a2⟩ := C28.next_can_start w u hH hL hnew hG (by
    cases h1 with
    | mk s x hr hph => exact .after s x _ [] hr hph (List.append_nil _).symm)
  have hP : PruneOk C env ids u src snaps :=
    ⟨hc, a1, a2.prune (fun x hx => C27.prune_may_follow hH hnew h1 x hx), ho, hs, hE⟩
  obtain ⟨b1, _, b2⟩ := C28.all_listed w u hH.packs_sorted hH.indexes_sorted hnew h1
  have hall : ∀ p ∈ BMap.keys u.repo.packs, ∃ m, Listed u.repo.indexes p m := by
    intro p hp
    rw [b1] at hp
    obtain ⟨⟨q, bs⟩, hq, rfl⟩ := List.mem_map.mp hp
    exact ⟨_, (b2 _ _).mpr ⟨bs, hq, rfl⟩⟩
  constructor
  · intro plan hN hp hf p hk
    rcases prune_lists u w' hP hN hp hf p hk with ⟨m, hm⟩ | ⟨h2, h3⟩
    · exact ⟨m, hm, fun e he => C26.only_needed_partial u w' hP hN hp hf p m e hm he⟩
    · obtain ⟨m, hm⟩ := hall p h2
      exact absurd hm (h3 m)
  · intro hp p hk
    obtain ⟨m, hm⟩ := hall p hk
    exact ⟨m, hm, fun e he => (C26.nothing_iff u hP false).mp hp p m e hm he⟩

/-! ## A case

A repository with two snapshots, one of which was forgotten, and beside its packs one that no index lists, as a backup
leaves that is killed before it has stored its index and whose directory is then removed. -/

def strayPack : Pack ObjectId := [Demo.blobOf .chunk [7, 7]]

@[irreducible] def strayId : ObjectId := Demo.pruneIds.packId (Pack.manifestOf strayPack)

@[irreducible] def strayRepo : Repo ObjectId := { Demo.repoA with packs := BMap.insert strayId strayPack Demo.repoA.packs }

theorem healthyS : Healthy Demo.codec Demo.pruneIds strayRepo := Check.healthy_sound (k := 2) (by decide +kernel)

theorem pruneOkS : PruneOk Demo.codec Demo.env Demo.pruneIds (Demo.clean strayRepo) (Check.opened strayRepo)
    (Demo.snapsOf strayRepo) := Demo.pruneOk_of healthyS (by decide +kernel)

@[irreducible] def planS : Plan ObjectId :=
  Demo.prunePlanOf (prunePlan Demo.codec Demo.env (Demo.clean strayRepo) (Check.opened strayRepo)
    (Demo.snapsOf strayRepo) false)

theorem planS_eq : prunePlan Demo.codec Demo.env (Demo.clean strayRepo) (Check.opened strayRepo)
    (Demo.snapsOf strayRepo) false = .ok (some planS) := by
  unfold planS
  exact Demo.prunePlanOf_eq (by decide +kernel)

theorem noClashS : PruneNoClash Demo.pruneIds 4 (Demo.clean strayRepo) planS where
  packs := Check.packsDiffer_sound (by decide +kernel)
  indexes := Demo.indexNew_of (by decide +kernel)

theorem unlistedS : ∀ m, ¬ Listed strayRepo.indexes strayId m := by
  intro m hm
  have : (strayId, m) ∈ Check.listed strayRepo := Check.mem_listed.mpr hm
  have hk : strayId ∉ (Check.listed strayRepo).map Prod.fst := by decide +kernel
  exact hk (List.mem_map_of_mem this)

theorem finishesS : ∃ w', Finished (liveCfg Demo.pruneIds 4 planS.start) (Demo.clean strayRepo) planS.main planS.posts w' := by
  obtain ⟨t, ht, hj⟩ := C24.finishes _ pruneOkS noClashS planS_eq (Nat.le_refl 4) BMap.sorted_nil _ .refl
  exact ⟨_, .mk t ht hj⟩

theorem _root_.Backpak.Pipeline.Finished.instant {c : Cfg Id} {w w' : World Id} {main : List (Op Id)} {post : List (Post Id)}
    (h : Finished c w main post w') : Instant c w main post w' := by
  cases h with
  | mk s hs hj => exact .after s post [] hs hj (List.append_nil _).symm

theorem thereS : strayId ∈ BMap.keys strayRepo.packs := by decide +kernel

/-- A prune of it runs to its end and the pack is still there, listed by nothing. -/
theorem stray_stays : ∃ w', Finished (liveCfg Demo.pruneIds 4 planS.start) (Demo.clean strayRepo) planS.main planS.posts w' ∧
    strayId ∈ BMap.keys w'.repo.packs := by
  obtain ⟨w', hf⟩ := finishesS
  have hd : Did Demo.codec Demo.cut Demo.pruneIds (Demo.clean strayRepo) w' :=
    .prune healthyS.indexes_sorted pruneOkS.opens planS_eq hf.instant
  exact ⟨w', hf, stays hd thereS unlistedS⟩

/-! Its index is rebuilt, and it is pruned. -/

theorem newS : C28.NewName Demo.pruneIds strayRepo := C28.newName_of (by decide +kernel)

theorem packsS : strayRepo.packs ≠ [] := by decide +kernel

/-- The repository with its index rebuilt. -/
@[irreducible] def rebuiltRepo : Repo ObjectId :=
  { strayRepo with indexes := [(Demo.pruneIds.indexId (C28.whole strayRepo), C28.whole strayRepo)] }

theorem healthyW : Healthy Demo.codec Demo.pruneIds rebuiltRepo := Check.healthy_sound (k := 2) (by decide +kernel)

theorem listedW : ∀ e ∈ rebuiltRepo.packs, ∃ f ∈ rebuiltRepo.indexes,
    (e.1, Pack.manifestOf e.2) ∈ f.2.packs ∧ ∀ g ∈ rebuiltRepo.indexes, f.1 ∉ g.2.supersedes := by decide +kernel

theorem rebuilt_eq : rebuiltRepo =
    { strayRepo with indexes := [(Demo.pruneIds.indexId (C28.whole strayRepo), C28.whole strayRepo)] } := by
  unfold rebuiltRepo; rfl

theorem rebuilt_packs : rebuiltRepo.packs = strayRepo.packs := by rw [rebuilt_eq]

theorem goodS : C28.AllGood Demo.codec (Demo.clean strayRepo) where
  packs := healthyW.sound.ledger.mono (fun p bs h => by
    replace h : (p, bs) ∈ rebuiltRepo.packs := by rw [rebuilt_packs]; exact h
    obtain ⟨f, h1, h2, h3⟩ := listedW _ h
    exact ⟨⟨f.1, f.2, ⟨h1, fun ⟨j, y, h4, h5⟩ => h3 _ h4 h5⟩, h2⟩, h⟩)
  same p bs bs' h := by cases h

/-- What rebuild-index leaves. -/
def rebuiltWorld : World ObjectId := ⟨rebuiltRepo, C28.leftBy Demo.pruneIds (Demo.clean strayRepo)⟩

theorem rebuiltS : Rebuild.Finished Demo.pruneIds true (Demo.clean strayRepo) rebuiltWorld := by
  obtain ⟨u, hu⟩ := (C28.demo healthyS newS packsS).1
  obtain ⟨h1, h2⟩ := C28.finished_repo healthyS.packs_sorted healthyS.indexes_sorted newS hu
  have : u = rebuiltWorld := by
    obtain ⟨r, c⟩ := u
    exact congr (congrArg World.mk (h1.trans rebuilt_eq.symm)) h2
  exact this ▸ hu

@[irreducible] def planW : Plan ObjectId :=
  Demo.prunePlanOf (prunePlan Demo.codec Demo.env rebuiltWorld (Check.opened rebuiltRepo) (Demo.snapsOf rebuiltRepo) false)

theorem planW_eq : prunePlan Demo.codec Demo.env rebuiltWorld (Check.opened rebuiltRepo)
    (Demo.snapsOf rebuiltRepo) false = .ok (some planW) := by
  unfold planW
  exact Demo.prunePlanOf_eq (by decide +kernel)

theorem noClashW : PruneNoClash Demo.pruneIds 4 rebuiltWorld planW where
  packs := Check.packsDiffer_sound (by decide +kernel)
  indexes := Demo.indexNew_of (by decide +kernel)

theorem pruneOkW : PruneOk Demo.codec Demo.env Demo.pruneIds rebuiltWorld (Check.opened rebuiltRepo)
    (Demo.snapsOf rebuiltRepo) := by
  have h := Demo.pruneOk_of healthyW (by decide +kernel)
  exact ⟨h.clock, h.healthy, (C28.next_can_start _ _ healthyS (Demo.leftover_clean healthyS) newS goodS rebuiltS.instant).2.prune
    (fun x hx => C27.prune_may_follow healthyS newS rebuiltS x hx), h.opens, h.loaded, h.noEmpty⟩

theorem sortedW : BMap.Sorted rebuiltWorld.cwd.packs := BMap.sorted_nil

theorem finishesW : ∃ w', Finished (liveCfg Demo.pruneIds 4 planW.start) rebuiltWorld planW.main planW.posts w' := by
  obtain ⟨t, ht, hj⟩ := C24.finishes _ pruneOkW noClashW planW_eq (Nat.le_refl 4) sortedW _ .refl
  exact ⟨_, .mk t ht hj⟩

def noPut : Post Id → Bool
  | .putSnap _ => false
  | _ => true

theorem removesW : Post.rmPack strayId ∈ planW.posts ∧ planW.posts.all noPut = true := by decide +kernel

theorem gone_after {c : Cfg Id} {w w' : World Id} {main : List (Op Id)} {post : List (Post Id)}
    (h : Finished c w main post w') {p : Id} (hp : Post.rmPack p ∈ post)
    (hn : post.all noPut = true) : p ∉ BMap.keys w'.repo.packs := by
  cases h with
  | mk s hs hj =>
    refine (gone (ids := c.ids) post s.world.repo (fun o ho sn e => ?_)).2 p (.inl hp)
    have := List.all_eq_true.mp hn o ho
    rw [e] at this
    cases this

/-- The pack was there, and is gone, and all that is left is listed and needed. -/
theorem stray_goes : strayId ∈ BMap.keys rebuiltWorld.repo.packs ∧
    ∃ w', Finished (liveCfg Demo.pruneIds 4 planW.start) rebuiltWorld planW.main planW.posts w' ∧
    strayId ∉ BMap.keys w'.repo.packs ∧
    ∀ p ∈ BMap.keys w'.repo.packs, ∃ m, Listed w'.repo.indexes p m ∧ ∀ e ∈ m, Needed Demo.codec w'.repo e.id := by
  obtain ⟨w', hf⟩ := finishesW
  exact ⟨(show strayId ∈ BMap.keys rebuiltRepo.packs from rebuilt_packs ▸ thereS), w', hf, gone_after hf removesW.1 removesW.2,
    (regained_partial healthyS (Demo.leftover_clean healthyS) newS goodS rebuiltS pruneOkW.noEmpty
    Demo.env_ok pruneOkW.opens pruneOkW.loaded).1 planW noClashW planW_eq hf⟩

end Backpak.C78
