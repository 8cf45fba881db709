import Verif.Props.C81

/-!
# C102 - What prune says it will do is what it does

Before it writes anything, and also in a dry run, `prune` prints how many packs it will keep, rewrite and drop, with the
size of the data in them.
-/

namespace Backpak.C102

open Spec Pipeline

variable {Id : Type} [LinearOrder Id] {C : Codec Id} {env : CacheEnv Id} {ids : Ids Id} {cores : Nat}
  {src : Source Id} {snaps : List (Snap Id)} {plan : Plan Id} {R : Repo Id} {w w' : World Id}

/-- The bytes that a pack with this list holds. -/
def bytesOf (m : Manifest Id) : Nat := (m.map Entry.length).sum

/-- There are `n` packs listed that satisfy `P`, and `bytes` bytes in them. -/
def Counts (R : Repo Id) (P : Manifest Id → Prop) (n bytes : Nat) : Prop :=
  ∃ L : List (Id × Manifest Id), L.Nodup ∧ (∀ p m, (p, m) ∈ L ↔ Listed R.indexes p m ∧ P m) ∧
    n = L.length ∧ bytes = (L.map (fun e => bytesOf e.2)).sum

/-- Some snapshot needs all of it, -/
def AllUsed (C : Codec Id) (R : Repo Id) (m : Manifest Id) : Prop := ∀ e ∈ m, Needed C R e.id

/-- none of it, though there is some, -/
def NoneUsed (C : Codec Id) (R : Repo Id) (m : Manifest Id) : Prop := m ≠ [] ∧ ∀ e ∈ m, ¬ Needed C R e.id

/-- or a part. -/
def PartUsed (C : Codec Id) (R : Repo Id) (m : Manifest Id) : Prop :=
  (∃ e ∈ m, Needed C R e.id) ∧ ∃ e ∈ m, ¬ Needed C R e.id

/-- There is always such a number of packs. -/
theorem counts_exist (R : Repo Id) (P : Manifest Id → Prop) : ∃ n b, Counts R P n b := by
  classical
  refine ⟨_, _, ((R.indexes.flatMap (fun e => e.2.packs)).filter (fun e => Listed R.indexes e.1 e.2 ∧ P e.2)).dedup,
    List.nodup_dedup _, fun p m => ?_, rfl, rfl⟩
  rw [List.mem_dedup, List.mem_filter]
  simp only [decide_eq_true_eq, and_iff_right_iff_imp]
  rintro ⟨⟨i, x, ⟨h1, _⟩, h2⟩, _⟩
  exact List.mem_flatMap.mpr ⟨(i, x), h1, h2⟩

theorem counts_one {P : Manifest Id → Prop} {n n' b b' : Nat} (h : Counts R P n b) (h' : Counts R P n' b') :
    n = n' ∧ b = b' := by
  obtain ⟨L, h1, h2, rfl, rfl⟩ := h
  obtain ⟨L', h1', h2', rfl, rfl⟩ := h'
  have : L.Perm L' := (List.perm_ext_iff_of_nodup h1 h1').mpr (fun ⟨p, m⟩ => (h2 p m).trans (h2' p m).symm)
  exact ⟨this.length_eq, (this.map _).sum_eq⟩

theorem counts_or {P Q : Manifest Id → Prop} {n n' b b' : Nat} (h : Counts R P n b) (h' : Counts R Q n' b')
    (hd : ∀ m, P m → ¬ Q m) : Counts R (fun m => P m ∨ Q m) (n + n') (b + b') := by
  obtain ⟨L, h1, h2, rfl, rfl⟩ := h
  obtain ⟨L', h1', h2', rfl, rfl⟩ := h'
  refine ⟨L ++ L', ?_, ?_, by simp, by simp⟩
  · refine List.nodup_append'.mpr ⟨h1, h1', ?_⟩
    rintro ⟨p, m⟩ g g'
    exact hd m ((h2 p m).mp g).2 ((h2' p m).mp g').2
  · intro p m
    rw [List.mem_append, h2, h2', ← and_or_left]

theorem counts_congr {P Q : Manifest Id → Prop} {n b : Nat} (h : Counts R P n b) (hd : ∀ m, P m ↔ Q m) :
    Counts R Q n b := by
  have : P = Q := funext fun m => propext (hd m)
  rwa [← this]

theorem counts_filter (hP : PruneOk C env ids w src snaps) (p : Id × Manifest Id → Bool) (P : Manifest Id → Prop)
    (h : ∀ e, p e = true ↔ P e.2) :
    Counts w.repo P (src.index.packs.filter p).length (packsBlobSize (src.index.packs.filter p)) := by
  refine ⟨src.index.packs.filter p, ((opens_packs_sorted hP.opens).nodup.of_map _).filter _, fun q m => ?_, rfl, rfl⟩
  rw [List.mem_filter, h, opens_mem hP.healthy.sound hP.opens]

theorem reusable_iff {reach : List Id} (hr : ∀ i, i ∈ reach ↔ Needed C R i) (m : Manifest Id) :
    reusable reach m = true ↔ AllUsed C R m := by
  simp [reusable, AllUsed, hr]

theorem sparse_iff {reach : List Id} (hr : ∀ i, i ∈ reach ↔ Needed C R i) (m : Manifest Id) :
    (!reusable reach m && !droppable reach m) = true ↔ PartUsed C R m := by
  simp [reusable, droppable, PartUsed, hr, and_comm]

theorem droppable_iff {reach : List Id} (hr : ∀ i, i ∈ reach ↔ Needed C R i) (m : Manifest Id) :
    (!reusable reach m && droppable reach m) = true ↔ NoneUsed C R m := by
  simp only [reusable, droppable, NoneUsed, hr, Bool.and_eq_true, Bool.not_eq_true', List.all_eq_false, List.any_eq_false,
    List.contains_iff_mem]
  constructor
  · rintro ⟨⟨e, he, _⟩, h⟩
    exact ⟨List.ne_nil_of_mem he, h⟩
  · rintro ⟨h1, h⟩
    obtain ⟨e, he⟩ := List.exists_mem_of_ne_nil _ h1
    exact ⟨⟨e, he, h e he⟩, h⟩

/-- In good order `prune` says something. If it says that all is in use, everything listed is, and the size is that of all
data in packs. -/
theorem all_in_use (hP : PruneOk C env ids w src snaps) {n : Nat} (h : pruneTells C w src snaps = .ok (.inUse n)) :
    (∃ k, Counts w.repo (fun _ => True) k n) ∧ ∀ p m, Listed w.repo.indexes p m → AllUsed C w.repo m := by
  unfold pruneTells at h
  split at h
  · cases h
  · rename_i sfs hsfs
    have hr := reachable_iff hP hsfs
    simp only at h
    split at h
    · rename_i hnil
      cases h
      have hall : ∀ p m, Listed w.repo.indexes p m → AllUsed C w.repo m := by
        intro p m hl
        by_contra hc
        rw [← reusable_iff hr] at hc
        have : (p, m) ∈ src.index.packs.filter (fun e => !reusable (reachableBlobs sfs) e.2) :=
          List.mem_filter.mpr ⟨(opens_mem hP.healthy.sound hP.opens p m).mpr hl, by simpa using hc⟩
        rw [List.isEmpty_iff.mp hnil] at this
        cases this
      refine ⟨?_, hall⟩
      obtain ⟨L, h1, h2, h3, h4⟩ := counts_filter hP (fun e => reusable (reachableBlobs sfs) e.2) (AllUsed C w.repo)
        (fun e => reusable_iff hr e.2)
      exact ⟨_, L, h1, fun p m => (h2 p m).trans ⟨fun g => ⟨g.1, trivial⟩, fun g => ⟨g.1, hall p m g.1⟩⟩, h3, h4⟩
    · cases h

/-- Otherwise the packs it says it keeps are those of which all is used, the ones it rewrites those of which a part is used,
the ones it drops those of which nothing is used, and the sizes are those of all the data in them. The indexes it replaces
are all. -/
theorem right (hP : PruneOk C env ids w src snaps) {k kb r rb d db i : Nat}
    (h : pruneTells C w src snaps = .ok (.will k kb r rb d db i)) :
    Counts w.repo (AllUsed C w.repo) k kb ∧ Counts w.repo (PartUsed C w.repo) r rb ∧
    Counts w.repo (NoneUsed C w.repo) d db ∧ 0 < r + d ∧ i = w.repo.indexes.length := by
  unfold pruneTells at h
  split at h
  · cases h
  · rename_i sfs hsfs
    have hr := reachable_iff hP hsfs
    simp only at h
    split at h
    · cases h
    · rename_i hnil
      cases h
      rw [List.filter_filter, List.filter_filter]
      have a1 := counts_filter hP (fun e => reusable (reachableBlobs sfs) e.2) (AllUsed C w.repo)
        (fun e => reusable_iff hr e.2)
      have a2 := counts_filter hP (fun e => !droppable (reachableBlobs sfs) e.2 && !reusable (reachableBlobs sfs) e.2)
        (PartUsed C w.repo) (fun e => by rw [← sparse_iff hr, Bool.and_comm])
      have a3 := counts_filter hP (fun e => droppable (reachableBlobs sfs) e.2 && !reusable (reachableBlobs sfs) e.2)
        (NoneUsed C w.repo) (fun e => by rw [← droppable_iff hr, Bool.and_comm])
      refine ⟨a1, a2, a3, ?_, rfl⟩
      obtain ⟨e, he⟩ := List.exists_mem_of_ne_nil _ (fun h => hnil (List.isEmpty_iff.mpr h))
      obtain ⟨h1, h2⟩ := List.mem_filter.mp he
      cases hd : droppable (reachableBlobs sfs) e.2 with
      | true =>
        have := List.length_pos_of_mem (List.mem_filter (p := fun e =>
          droppable (reachableBlobs sfs) e.2 && !reusable (reachableBlobs sfs) e.2) |>.mpr ⟨h1, by simp [hd, h2]⟩)
        omega
      | false =>
        have := List.length_pos_of_mem (List.mem_filter (p := fun e =>
          !droppable (reachableBlobs sfs) e.2 && !reusable (reachableBlobs sfs) e.2) |>.mpr ⟨h1, by simp [hd, h2]⟩)
        omega

omit [LinearOrder Id] in
theorem classes (C : Codec Id) (R : Repo Id) (m : Manifest Id) : AllUsed C R m ∨ PartUsed C R m ∨ NoneUsed C R m := by
  by_cases h1 : AllUsed C R m
  · exact .inl h1
  · unfold AllUsed at h1
    push Not at h1
    by_cases h2 : ∃ e ∈ m, Needed C R e.id
    · exact .inr (.inl ⟨h2, h1⟩)
    · push Not at h2
      obtain ⟨e, he, _⟩ := h1
      exact .inr (.inr ⟨List.ne_nil_of_mem he, h2⟩)

/-- The three kinds are all the packs that are listed, and the sizes add up. -/
theorem adds_up (hP : PruneOk C env ids w src snaps) {k kb r rb d db i : Nat}
    (h : pruneTells C w src snaps = .ok (.will k kb r rb d db i)) :
    Counts w.repo (fun _ => True) (k + r + d) (kb + rb + db) := by
  obtain ⟨h1, h2, h3, _, _⟩ := right hP h
  refine counts_congr (counts_or (counts_or h1 h2 ?_) h3 ?_) (fun m => ?_)
  · rintro m g1 ⟨_, e, g2, g3⟩
    exact g3 (g1 e g2)
  · rintro m (g1 | ⟨⟨e, g1, g2⟩, _⟩) ⟨g3, g4⟩
    · obtain ⟨e, he⟩ := List.exists_mem_of_ne_nil _ g3
      exact g4 e he (g1 e he)
    · exact g4 e g1 g2
  · rw [or_assoc]
    exact iff_of_true (classes C w.repo m) trivial

/-- It says that it will do something just if it does, dry run or not; what it says does not depend on that. -/
theorem tells_iff (hP : PruneOk C env ids w src snaps) (dry : Bool) :
    ((∃ n, pruneTells C w src snaps = .ok (.inUse n)) ↔ prunePlan C env w src snaps dry = .ok none) ∧
    ((∃ k kb r rb d db i, pruneTells C w src snaps = .ok (.will k kb r rb d db i)) ↔
      ∃ plan, prunePlan C env w src snaps dry = .ok (some plan)) := by
  obtain ⟨sfs, h1⟩ := loadForests_ok hP.healthy.sound hP.opens snaps
    (fun s hs => hP.healthy.readable _ _ ((hP.loaded _ _).mpr hs)) newTreeCache_ok
  obtain ⟨x, h2⟩ := prune_succeeds hP dry
  have hx : (src.index.packs.filter (fun e => !reusable (reachableBlobs sfs) e.2)).isEmpty = true ↔ x = none := by
    unfold prunePlan at h2
    simp only [h1] at h2
    constructor
    · intro h
      rw [if_pos h] at h2
      cases h2
      rfl
    · rintro rfl
      by_contra h
      rw [if_neg h] at h2
      repeat' split at h2
      all_goals cases h2
  rw [h2]
  unfold pruneTells
  simp only [h1]
  by_cases h : (src.index.packs.filter (fun e => !reusable (reachableBlobs sfs) e.2)).isEmpty = true
  · rw [if_pos h]
    rw [hx.mp h]
    simp
  · rw [if_neg h]
    obtain ⟨plan, rfl⟩ := Option.ne_none_iff_exists'.mp (fun hn => h (hx.mpr hn))
    simp

/-! ## What it does -/

/-- Once it has finished, of the packs that were listed just those that it said it would keep are there; they are listed
still, and hold the same. One index is there in place of the others. -/
theorem does (hP : PruneOk C env ids w src snaps) (hN : PruneNoClash ids cores w plan)
    (hp : prunePlan C env w src snaps false = .ok (some plan))
    (h : Finished (liveCfg ids cores plan.start) w plan.main plan.posts w') :
    (∀ p m bs, Listed w.repo.indexes p m → (p, bs) ∈ w.repo.packs →
      (p ∈ BMap.keys w'.repo.packs ↔ AllUsed C w.repo m) ∧
      (AllUsed C w.repo m → Listed w'.repo.indexes p m ∧ (p, bs) ∈ w'.repo.packs)) ∧
    ∃ i x, w'.repo.indexes = [(i, x)] := by
  have hL := C26.left hP hN hp h
  refine ⟨fun p m bs hl hb => ?_, (C26.cleans_up_partial w w' hP hN hp h).1⟩
  have key : AllUsed C w.repo m → Listed w'.repo.indexes p m ∧ (p, bs) ∈ w'.repo.packs := by
    intro hu
    cases h with
    | mk s hs hj =>
      obtain ⟨c, reach, hpr⟩ := pruning hP hN hp
      have hr := hpr.reachable hs
      obtain ⟨x, news, hn, _, ht, _⟩ := hpr.later hP hr hj (done := plan.posts) (rest := []) (List.append_nil _).symm
      have hlist := (ht.sole.listed ht.sound.indexes_sorted p m).mpr (hn.packs.symm.subset (List.mem_append_left _ (by
        rw [hpr.cfg]
        exact hpr.all _ (List.mem_filter.mpr ⟨(opens_mem hP.healthy.sound hP.opens p m).mpr hl,
          (reusable_iff hpr.exact m).mpr hu⟩))))
      refine ⟨hlist, ?_⟩
      obtain ⟨cs, hc, _⟩ := ht.sound.present p m hlist
      have := Good_unique hpr.run.inj ((effect hpr.run hr).names p cs (ht.packs _ hc)) (hpr.run.world.repo p bs hb)
      subst this
      exact hc
  refine ⟨⟨fun hk => ?_, fun hu => BMap.mem_keys_of_mem (key hu).2⟩, key⟩
  have hl' := hL.packs p m hl hk
  obtain ⟨cs, hc, rfl⟩ := hL.healthy.present p m hl'
  intro e he
  obtain ⟨b, hb', rfl⟩ := List.mem_map.mp he
  exact (hL.old b ((hL.healthy.sound.has_iff b).mpr ⟨p, cs, hl', hc, hb'⟩)).1

/-! ## How much smaller the repository gets -/

/-- The bytes listed are those of the blobs that are. -/
theorem bytes_blobs (hH : Healthy C ids R) {P : Manifest Id → Prop} {n bytes : Nat} (h : Counts R P n bytes) :
    ∃ L : List (Blob Id), L.Nodup ∧ (∀ b, b ∈ L ↔ ∃ p bs, Listed R.indexes p (Pack.manifestOf bs) ∧ (p, bs) ∈ R.packs ∧
      P (Pack.manifestOf bs) ∧ b ∈ bs) ∧ bytes = (L.map (·.data.length)).sum := by
  obtain ⟨L0, h1, h2, _, rfl⟩ := h
  let f : Id × Manifest Id → Pack Id := fun e => (R.packs.get? e.1).getD []
  have hf : ∀ e ∈ L0, Listed R.indexes e.1 e.2 ∧ (e.1, f e) ∈ R.packs ∧ e.2 = Pack.manifestOf (f e) := by
    rintro ⟨p, m⟩ he
    have hl := ((h2 p m).mp he).1
    obtain ⟨bs, hb, hm⟩ := hH.present p m hl
    have : f (p, m) = bs := by
      simp only [f, (BMap.get?_eq_some_iff hH.packs_sorted).mpr hb, Option.getD_some]
    rw [this]
    exact ⟨hl, hb, hm.symm⟩
  refine ⟨L0.flatMap f, ?_, ?_, ?_⟩
  · refine List.nodup_flatMap.mpr ⟨fun e he => ?_, ?_⟩
    · obtain ⟨g1, _, g3⟩ := hf e he
      have := hH.distinct _ _ g1
      rw [g3, Pack.manifestOf, List.map_map] at this
      exact this.of_map _
    · refine h1.imp_of_mem (fun {a b} ha hb hne => ?_)
      intro x hx hx'
      obtain ⟨a1, a2, a3⟩ := hf a ha
      obtain ⟨b1, b2, b3⟩ := hf b hb
      have hp := hH.once _ _ _ _ (Pack.entryOf x) (Pack.entryOf x) a1 b1 (by rw [a3]; exact List.mem_map.mpr ⟨x, hx, rfl⟩)
        (by rw [b3]; exact List.mem_map.mpr ⟨x, hx', rfl⟩) rfl
      refine hne (Prod.ext hp ?_)
      have : f a = f b := by simp only [f, hp]
      rw [a3, b3, this]
  · intro b
    rw [List.mem_flatMap]
    constructor
    · rintro ⟨⟨p, m⟩, he, hb⟩
      obtain ⟨g1, g2, g3⟩ := hf _ he
      have := ((h2 p m).mp he).2
      simp only at g3 g1
      rw [g3] at g1 this
      exact ⟨p, _, g1, g2, this, hb⟩
    · rintro ⟨p, bs, g1, g2, g3, g4⟩
      refine ⟨(p, Pack.manifestOf bs), (h2 _ _).mpr ⟨g1, g3⟩, ?_⟩
      simp only [f, (BMap.get?_eq_some_iff hH.packs_sorted).mpr g2, Option.getD_some]
      exact g4
  · have : ∀ l : List (Id × Manifest Id), (∀ e ∈ l, e.2 = Pack.manifestOf (f e)) →
        (l.map (fun e => bytesOf e.2)).sum = ((l.flatMap f).map (·.data.length)).sum := by
      intro l
      induction l with
      | nil => intro _; rfl
      | cons e l ih =>
        intro hl
        rw [List.map_cons, List.sum_cons, List.flatMap_cons, List.map_append, List.sum_append,
          ih (fun e he => hl e (List.mem_cons_of_mem _ he)), hl e List.mem_cons_self, bytesOf, Pack.manifestOf, List.map_map]
        rfl
    exact this L0 (fun e he => (hf e he).2.2)

/-- A snapshot that needs the empty tree has it as a directory. -/
theorem needed_empty (hP : PruneOk C env ids w src snaps) (h : Needed C w.repo C.emptyId) :
    ∃ i sn, (i, sn) ∈ w.repo.snapshots ∧ Reaches (TreeAt C w.repo) sn.tree C.emptyId := by
  obtain ⟨j, s, h1, u, t, h2, h3, h4⟩ := h
  rcases h4 with rfl | h4
  · exact ⟨j, s, h1, h2⟩
  · obtain ⟨d, hd⟩ := hP.healthy.readable j s h1
    obtain ⟨_, d', t', ht', hd'⟩ := reaches_kept hP.healthy.sound (fun b hb => .inl hb) h2 hd
    have := hP.healthy.sound.treeAt_one h3 ht'
    subst this
    obtain ⟨x, hx⟩ := holds_chunk hd' h4
    exact (hP.noEmpty x hx).elim

/-- What can be found afterwards. -/
theorem found_iff (hP : PruneOk C env ids w src snaps) (hN : PruneNoClash ids cores w plan)
    (hp : prunePlan C env w src snaps false = .ok (some plan))
    (h : Finished (liveCfg ids cores plan.start) w plan.main plan.posts w')
    (hst : Needed C w.repo C.emptyId → Has C w.repo (emptyBlob C)) (b : Blob Id) :
    Has C w'.repo b ↔ Has C w.repo b ∧ Needed C w.repo b.id := by
  by_cases e : b.id = C.emptyId
  · have hL := C26.left hP hN hp h
    have back : ∀ b, Has C w'.repo b → Has C w.repo b ∧ Needed C w.repo b.id := by
      intro b hb
      obtain ⟨h1, h2⟩ := hL.old b hb
      rcases h2 with h2 | rfl
      · exact ⟨h2, h1⟩
      · exact ⟨hst h1, h1⟩
    refine ⟨back b, ?_⟩
    rintro ⟨hb, hn⟩
    obtain ⟨i, sn, h1, h2⟩ := needed_empty hP (e ▸ hn)
    obtain ⟨b', h3, h4⟩ := hL.stored i sn _ h1 h2
    rw [hP.healthy.sound.has_one hb (back _ h3).1 (e.trans h4.symm)]
    exact h3
  · exact C26.exactly_partial w w' hP hN hp h b e

/-- In a listed pack of which a part is used. -/
def InPart (C : Codec Id) (R : Repo Id) (b : Blob Id) : Prop :=
  ∃ p bs, Listed R.indexes p (Pack.manifestOf bs) ∧ (p, bs) ∈ R.packs ∧ PartUsed C R (Pack.manifestOf bs) ∧ b ∈ bs

/-- The size of some blobs. -/
def sizeOf (L : List (Blob Id)) : Nat := (L.map (·.data.length)).sum

/-- In general. -/
theorem frees_with (hP : PruneOk C env ids w src snaps) (hH' : Healthy C ids w'.repo) {k kb r rb d db i : Nat}
    (ht : pruneTells C w src snaps = .ok (.will k kb r rb d db i)) {n b : Nat}
    (hc : Counts w'.repo (fun _ => True) n b) {X E : List (Blob Id)} (hX : X.Nodup)
    (hm : ∀ x, x ∈ X ↔ InPart C w.repo x ∧ Needed C w.repo x.id) (hE : E.Nodup) (hd : ∀ x ∈ E, ¬ Has C w.repo x)
    (hf : ∀ x, Has C w'.repo x ↔ (Has C w.repo x ∧ Needed C w.repo x.id) ∨ x ∈ E) : b = kb + sizeOf X + sizeOf E := by
  have hH := hP.healthy
  obtain ⟨h1, h2, h3, _, _⟩ := right hP ht
  obtain ⟨K, k1, k2, rfl⟩ := bytes_blobs hH h1
  obtain ⟨B, b1, b2, rfl⟩ := bytes_blobs hH' hc
  have : B.Perm (K ++ X ++ E) := by
    refine (List.perm_ext_iff_of_nodup b1 ?_).mpr (fun x => ?_)
    · refine List.nodup_append'.mpr ⟨List.nodup_append'.mpr ⟨k1, hX, ?_⟩, hE, ?_⟩
      swap
      · intro x g1 g2
        refine hd x g2 ((hH.sound.has_iff x).mpr ?_)
        rcases List.mem_append.mp g1 with g1 | g1
        · obtain ⟨p, bs, a1, a2, _, a4⟩ := (k2 x).mp g1
          exact ⟨p, bs, a1, a2, a4⟩
        · obtain ⟨⟨p, bs, a1, a2, _, a4⟩, _⟩ := (hm x).mp g1
          exact ⟨p, bs, a1, a2, a4⟩
      intro x g1 g2
      obtain ⟨p, bs, a1, a2, a3, a4⟩ := (k2 x).mp g1
      obtain ⟨⟨q, cs, c1, c2, c3, c4⟩, _⟩ := (hm x).mp g2
      have := hH.once _ _ _ _ (Pack.entryOf x) (Pack.entryOf x) a1 c1 (List.mem_map.mpr ⟨x, a4, rfl⟩)
        (List.mem_map.mpr ⟨x, c4, rfl⟩) rfl
      subst this
      have e1 := (BMap.get?_eq_some_iff hH.packs_sorted).mpr a2
      rw [(BMap.get?_eq_some_iff hH.packs_sorted).mpr c2] at e1
      cases e1
      obtain ⟨_, e, e1, e2⟩ := c3
      exact e2 (a3 e e1)
    · rw [List.mem_append, List.mem_append, k2, hm]
      have hb : x ∈ B ↔ Has C w'.repo x := by
        rw [b2, hH'.sound.has_iff]
        simp only [true_and]
      rw [hb, hf, hH.sound.has_iff]
      refine or_congr_left ?_
      constructor
      · rintro ⟨⟨p, bs, a1, a2, a3⟩, hn⟩
        rcases classes C w.repo (Pack.manifestOf bs) with hu | hu | hu
        · exact .inl ⟨p, bs, a1, a2, hu, a3⟩
        · exact .inr ⟨⟨p, bs, a1, a2, hu, a3⟩, hn⟩
        · exact (hu.2 _ (List.mem_map.mpr ⟨x, a3, rfl⟩) hn).elim
      · rintro (⟨p, bs, a1, a2, a3, a4⟩ | ⟨⟨p, bs, a1, a2, a3, a4⟩, hn⟩)
        · exact ⟨⟨p, bs, a1, a2, a4⟩, a3 _ (List.mem_map.mpr ⟨x, a4, rfl⟩)⟩
        · exact ⟨⟨p, bs, a1, a2, a4⟩, hn⟩
  rw [(this.map _).sum_eq, List.map_append, List.sum_append, List.map_append, List.sum_append]
  rfl

/-- The data in packs afterwards is what it said it would keep, and of what it said it would rewrite the part that is
used. (A snapshot with an empty directory needs the empty tree, which need not be stored; a prune stores it then, see
`frees_empty`.) -/
theorem frees (hP : PruneOk C env ids w src snaps) (hN : PruneNoClash ids cores w plan)
    (hp : prunePlan C env w src snaps false = .ok (some plan))
    (h : Finished (liveCfg ids cores plan.start) w plan.main plan.posts w')
    (hst : Needed C w.repo C.emptyId → Has C w.repo (emptyBlob C)) {k kb r rb d db i : Nat}
    (ht : pruneTells C w src snaps = .ok (.will k kb r rb d db i)) {n b : Nat}
    (hc : Counts w'.repo (fun _ => True) n b) {X : List (Blob Id)} (hX : X.Nodup)
    (hm : ∀ x, x ∈ X ↔ InPart C w.repo x ∧ Needed C w.repo x.id) : b = kb + sizeOf X := by
  have := frees_with hP (C26.left hP hN hp h).healthy ht hc hX hm (E := []) .nil (by simp) (fun x => by
    rw [found_iff hP hN hp h hst]; simp)
  simpa [sizeOf] using this

/-- If a snapshot has an empty directory and the empty tree is not stored, there is that much more. -/
theorem frees_empty (hP : PruneOk C env ids w src snaps) (hN : PruneNoClash ids cores w plan)
    (hp : prunePlan C env w src snaps false = .ok (some plan))
    (h : Finished (liveCfg ids cores plan.start) w plan.main plan.posts w')
    (hneed : Needed C w.repo C.emptyId) (hno : ∀ b, Has C w.repo b → b.id ≠ C.emptyId) {k kb r rb d db i : Nat}
    (ht : pruneTells C w src snaps = .ok (.will k kb r rb d db i)) {n b : Nat}
    (hc : Counts w'.repo (fun _ => True) n b) {X : List (Blob Id)} (hX : X.Nodup)
    (hm : ∀ x, x ∈ X ↔ InPart C w.repo x ∧ Needed C w.repo x.id) : b = kb + sizeOf X + (emptyBlob C).data.length := by
  have hL := C26.left hP hN hp h
  have := frees_with hP hL.healthy ht hc hX hm (E := [emptyBlob C]) (by simp) (by
    intro x hx hh
    rw [List.mem_singleton] at hx
    subst hx
    exact hno _ hh rfl) (fun x => by
    rw [List.mem_singleton]
    by_cases e : x.id = C.emptyId
    · constructor
      · intro hx
        rcases (hL.old x hx).2 with h1 | h1
        · exact (hno x h1 e).elim
        · exact .inr h1
      · rintro (h1 | rfl)
        · exact (hno x h1.1 e).elim
        · obtain ⟨i, sn, h1, h2⟩ := needed_empty hP hneed
          obtain ⟨b', h3, h4⟩ := hL.stored i sn _ h1 h2
          rcases (hL.old b' h3).2 with h5 | rfl
          · exact (hno _ h5 h4).elim
          · exact h3
    · rw [C26.exactly_partial w w' hP hN hp h x e]
      refine ⟨.inl, ?_⟩
      rintro (h1 | rfl)
      · exact h1
      · exact (e rfl).elim)
  simpa [sizeOf] using this

/-- So it frees what it said it would drop, and if it said that it would rewrite any, some of that, but not all. -/
theorem frees_some (hP : PruneOk C env ids w src snaps) (hN : PruneNoClash ids cores w plan)
    (hp : prunePlan C env w src snaps false = .ok (some plan))
    (h : Finished (liveCfg ids cores plan.start) w plan.main plan.posts w')
    (hst : Needed C w.repo C.emptyId → Has C w.repo (emptyBlob C)) {k kb r rb d db i : Nat}
    (ht : pruneTells C w src snaps = .ok (.will k kb r rb d db i)) {n b n' b' : Nat}
    (hc : Counts w.repo (fun _ => True) n b) (hc' : Counts w'.repo (fun _ => True) n' b') :
    b' + db ≤ b ∧ b ≤ b' + db + rb ∧ (0 < r → b' + db < b ∧ b < b' + db + rb) ∧ (r = 0 → b = b' + db) := by
  classical
  have hH := hP.healthy
  obtain ⟨rfl, rfl⟩ := counts_one hc (adds_up hP ht)
  obtain ⟨_, h2, _, _, _⟩ := right hP ht
  have h2' := h2
  obtain ⟨W, w1, w2, rfl⟩ := bytes_blobs hH h2
  have hb := frees hP hN hp h hst ht hc' (w1.filter (fun x => Needed C w.repo x.id)) (fun x => by
    rw [List.mem_filter, w2]; simp [InPart])
  have hsum : ∀ l : List (Blob Id), (l.map (·.data.length)).sum =
      sizeOf (l.filter (fun x => Needed C w.repo x.id)) + sizeOf (l.filter (fun x => ¬ Needed C w.repo x.id)) := by
    intro l
    induction l with
    | nil => rfl
    | cons x l ih =>
      by_cases hx : Needed C w.repo x.id <;> simp [hx, sizeOf] at ih ⊢ <;> omega
  have hpos : ∀ l : List (Blob Id), (∃ x ∈ l, x.data ≠ []) → 0 < sizeOf l := by
    rintro l ⟨x, hx, hne⟩
    by_contra h0
    exact hne (List.length_eq_zero_iff.mp (C81.le_zero (List.mem_map.mpr ⟨x, hx, rfl⟩) (Nat.eq_zero_of_not_pos h0)))
  have h3 : 0 < r → 0 < sizeOf (W.filter (fun x => Needed C w.repo x.id)) ∧
      0 < sizeOf (W.filter (fun x => ¬ Needed C w.repo x.id)) := by
    intro h0
    obtain ⟨L, _, l2, rfl, _⟩ := h2'
    obtain ⟨⟨p, m⟩, he⟩ := List.exists_mem_of_length_pos h0
    obtain ⟨hl, hu⟩ := (l2 p m).mp he
    obtain ⟨bs, hbs, rfl⟩ := hH.present p m hl
    obtain ⟨⟨e, e1, e2⟩, e', e1', e2'⟩ := id hu
    obtain ⟨x, hx, rfl⟩ := List.mem_map.mp e1
    obtain ⟨x', hx', rfl⟩ := List.mem_map.mp e1'
    refine ⟨hpos _ ⟨x, ?_, hH.full p bs x hl hbs hx⟩, hpos _ ⟨x', ?_, hH.full p bs x' hl hbs hx'⟩⟩
    · exact List.mem_filter.mpr ⟨(w2 x).mpr ⟨p, bs, hl, hbs, hu, hx⟩, decide_eq_true e2⟩
    · exact List.mem_filter.mpr ⟨(w2 x').mpr ⟨p, bs, hl, hbs, hu, hx'⟩, decide_eq_true e2'⟩
  have h4 : r = 0 → W = [] := by
    rintro rfl
    obtain ⟨L, _, l2, l3, _⟩ := h2'
    rw [List.eq_nil_iff_forall_not_mem]
    intro x hx
    obtain ⟨p, bs, a1, a2, a3, _⟩ := (w2 x).mp hx
    have := (l2 p _).mpr ⟨a1, a3⟩
    rw [List.length_eq_zero_iff.mp l3.symm] at this
    cases this
  have h5 := hsum W
  have h6 : r = 0 → (W.map (·.data.length)).sum = 0 := fun h0 => by rw [h4 h0]; rfl
  refine ⟨by omega, by omega, fun h0 => ?_, fun h0 => ?_⟩
  · have := h3 h0
    omega
  · have := h6 h0
    omega

/-! ## Examples -/

/-- No snapshot there has an empty directory. -/
theorem none_empty : ¬ Needed Demo.codec Demo.repoA Demo.codec.emptyId := by
  obtain ⟨sfs, h⟩ := loadForests_ok Demo.pruneOkA.healthy.sound Demo.pruneOkA.opens (Demo.snapsOf Demo.repoA)
    (fun s hs => Demo.pruneOkA.healthy.readable _ _ ((Demo.pruneOkA.loaded _ _).mpr hs)) newTreeCache_ok
  have hk := reachable_iff Demo.pruneOkA h Demo.codec.emptyId
  have : (loadForests Demo.codec (Check.opened Demo.repoA) (newTreeCache Demo.codec) (Demo.snapsOf Demo.repoA)).toOption.all
    (fun sfs => !(reachableBlobs sfs).contains Demo.codec.emptyId) = true := by decide +kernel
  rw [h] at this
  intro hn
  rw [← show (Demo.clean Demo.repoA).repo = Demo.repoA from rfl, ← hk] at hn
  simp [Except.toOption, hn] at this

/-- A snapshot was forgotten: two packs, of 208 bytes, are to be rewritten, and one of two bytes dropped. -/
theorem example_tells : pruneTells Demo.codec (Demo.clean Demo.repoA) (Check.opened Demo.repoA) (Demo.snapsOf Demo.repoA) =
    .ok (.will 0 0 2 208 1 2 1) := by decide +kernel

/-- With the snapshot not forgotten, the two are kept. -/
theorem example_tells' : pruneTells Demo.codec (Demo.clean Demo.repoAB) (Check.opened Demo.repoAB)
    (Demo.snapsOf Demo.repoAB) = .ok (.will 2 208 0 0 1 2 1) := by decide +kernel

example : PruneOk Demo.codec Demo.env Demo.pruneIds (Demo.clean Demo.repoA) (Check.opened Demo.repoA) (Demo.snapsOf Demo.repoA) ∧
    PruneNoClash Demo.pruneIds 4 (Demo.clean Demo.repoA) Demo.planA ∧
    prunePlan Demo.codec Demo.env (Demo.clean Demo.repoA) (Check.opened Demo.repoA) (Demo.snapsOf Demo.repoA) false =
      .ok (some Demo.planA) ∧ ¬ Needed Demo.codec Demo.repoA Demo.codec.emptyId ∧
    ∃ w', Finished (liveCfg Demo.pruneIds 4 Demo.planA.start) (Demo.clean Demo.repoA) Demo.planA.main Demo.planA.posts w' ∧
      ∃ n b, Counts w'.repo (fun _ => True) n b := by
  refine ⟨Demo.pruneOkA, Demo.noClashA, Demo.planA_eq, none_empty, ?_⟩
  obtain ⟨t, ht, hj⟩ := C24.finishes _ Demo.pruneOkA Demo.noClashA Demo.planA_eq (Nat.le_refl 4)
    (by unfold BMap.Sorted; decide +kernel) _ .refl
  exact ⟨_, .mk t ht hj, counts_exist _ _⟩

/-! A snapshot with an empty directory -/

def treeE : Tree ObjectId :=
  [([97], ⟨.file [Demo.chunkA.id], Demo.fileMd 3 5⟩), ([101], ⟨.dir Demo.codec.emptyId, Demo.dirMd⟩)]

def snapE : Snapshot ObjectId := Demo.snapOf (Demo.treeBlob treeE) 1

def repoE : Repo ObjectId := Demo.repoOf Demo.pruneIds [[Demo.chunkA], [Demo.treeBlob treeE], [Demo.junk]] [snapE]

theorem healthyE : Healthy Demo.codec Demo.pruneIds repoE := Check.healthy_sound (k := 3) (by decide +kernel)

theorem pruneOkE : PruneOk Demo.codec Demo.env Demo.pruneIds (Demo.clean repoE) (Check.opened repoE) (Demo.snapsOf repoE) :=
  Demo.pruneOk_of healthyE (by decide +kernel)

def planE : Plan ObjectId :=
  Demo.prunePlanOf (prunePlan Demo.codec Demo.env (Demo.clean repoE) (Check.opened repoE) (Demo.snapsOf repoE) false)

theorem planE_eq : prunePlan Demo.codec Demo.env (Demo.clean repoE) (Check.opened repoE) (Demo.snapsOf repoE) false =
    .ok (some planE) := Demo.prunePlanOf_eq (by decide +kernel)

theorem noClashE : PruneNoClash Demo.pruneIds 4 (Demo.clean repoE) planE where
  packs := Check.packsDiffer_sound (by decide +kernel)
  indexes := Demo.indexNew_of (by decide +kernel)

/-- It says that it will keep two packs and drop one; but it stores the empty tree too. -/
example : pruneTells Demo.codec (Demo.clean repoE) (Check.opened repoE) (Demo.snapsOf repoE) = .ok (.will 2 197 0 0 1 2 1) ∧
    sends planE.main = [emptyBlob Demo.codec] ∧ Needed Demo.codec repoE Demo.codec.emptyId ∧
    (∀ b, Has Demo.codec repoE b → b.id ≠ Demo.codec.emptyId) ∧
    ∃ w', Finished (liveCfg Demo.pruneIds 4 planE.start) (Demo.clean repoE) planE.main planE.posts w' := by
  refine ⟨by decide +kernel, by decide +kernel, ?_, ?_, ?_⟩
  · refine ⟨Demo.pruneIds.snapId snapE, snapE, by decide +kernel, Demo.codec.emptyId, [],
      .step (t := treeE) (n := [101]) (md := Demo.dirMd) ?_ (by decide +kernel) .refl, ?_, .inl rfl⟩
    · exact ⟨Check.okTree_sound (by decide +kernel), by decide +kernel, .inr (Check.has_iff.mpr (by decide +kernel))⟩
    · exact ⟨Check.okTree_sound (by decide +kernel), by decide +kernel, .inl rfl⟩
  · intro b hb
    have : ∀ b ∈ Check.blobs repoE, b.id ≠ Demo.codec.emptyId := by decide +kernel
    exact this b (Check.has_iff.mp hb).2
  · obtain ⟨t, ht, hj⟩ := C24.finishes _ pruneOkE noClashE planE_eq (Nat.le_refl 4)
      (by unfold BMap.Sorted; decide +kernel) _ .refl
    exact ⟨_, .mk t ht hj⟩

end Backpak.C102
