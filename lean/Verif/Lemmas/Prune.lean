import Verif.Model.Prune
import Verif.Spec.PruneLeft
import Verif.Lemmas.FilterSame
import Verif.Lemmas.Replace
import Verif.Lemmas.Finish
import Mathlib.Data.List.Flatten

/-!
# A whole prune
-/

namespace Backpak

open Spec Pipeline

variable {Id : Type} [LinearOrder Id]

/-- What a prune may take for granted: a repository in good order and whatever an interrupted
backup or prune left in the working directory; the index and all the snapshots loaded from it; a
clock that goes forward; and that no chunk has the bytes of an empty tree (see `C24.empty_tree_hides_chunk`). -/
structure PruneOk (C : Codec Id) (env : CacheEnv Id) (ids : Ids Id) (w : World Id) (src : Source Id)
    (snaps : List (Snap Id)) : Prop where
  clock : C33.EnvOk env
  healthy : Healthy C ids w.repo
  leftover : PruneLeft C ids w
  opens : Opens w.repo src
  loaded : ∀ i s, (i, s) ∈ w.repo.snapshots ↔ (s, i) ∈ snaps
  noEmpty : ∀ x, ¬ Has C w.repo ⟨x, C.emptyId, .chunk⟩

/-- No two packs that take part have one ID, and the new index has not the ID of one that is there
or was superseded. -/
structure PruneNoClash (ids : Ids Id) (cores : Nat) (w : World Id) (plan : Plan Id) : Prop where
  packs : PacksDiffer ids w plan.main
  indexes : IndexNew (liveCfg ids cores plan.start) w.repo (sends plan.main)

variable {C : Codec Id} {env : CacheEnv Id} {ids : Ids Id} {cores : Nat} {w : World Id}
  {src : Source Id} {snaps : List (Snap Id)} {plan : Plan Id} {dry : Bool}

theorem reachable_iff (hP : PruneOk C env ids w src snaps) {sfs : List (Snap Id × Forest Id)}
    (h : loadForests C src (newTreeCache C) snaps = .ok sfs) (i : Id) :
    i ∈ reachableBlobs sfs ↔ Needed C w.repo i := by
  obtain ⟨h1, h2⟩ := loadForests_sound hP.healthy.sound hP.opens snaps newTreeCache_ok h
  unfold reachableBlobs blobsInForest Needed
  simp only [List.mem_flatMap]
  constructor
  · rintro ⟨e, he, ⟨u, t⟩, hm, hi⟩
    have hsn : e.1 ∈ snaps := by rw [← h1]; exact List.mem_map.mpr ⟨e, he, rfl⟩
    obtain ⟨h3, h4⟩ := h2 e he
    obtain ⟨h5, h6⟩ := (h3 u t).mp ((BMap.get?_eq_some_iff h4).mpr hm)
    exact ⟨e.1.2, e.1.1, (hP.loaded _ _).mpr hsn, u, t, h5, h6, List.mem_cons.mp hi⟩
  · rintro ⟨j, s, hs, u, t, h3, h4, h5⟩
    have hsn := (hP.loaded _ _).mp hs
    rw [← h1] at hsn
    obtain ⟨e, he, heq⟩ := List.mem_map.mp hsn
    obtain ⟨h6, h7⟩ := h2 e he
    refine ⟨e, he, (u, t), BMap.mem_of_get? ((h6 u t).mpr ⟨by rw [heq]; exact h3, h4⟩), ?_⟩
    exact List.mem_cons.mpr h5

/-- The index a prune starts from, if it does not resume. -/
def freshIndex (w : World Id) (src : Source Id) (reach : List Id) : Index Id :=
  ⟨BMap.keys w.repo.indexes, src.index.packs.filter (fun e => reusable reach e.2)⟩

/-- The packs a prune removes. -/
def prunedPacks (src : Source Id) (reach : List Id) : BMap Id (Manifest Id) :=
  src.index.packs.filter (fun e => !reusable reach e.2)

/-- What a prune that is not a dry run does after the join. -/
def prunePosts (w : World Id) (src : Source Id) (reach : List Id) : List (Post Id) :=
  (BMap.keys w.repo.indexes).map Post.rmIndex ++ (BMap.keys (prunedPacks src reach)).map Post.rmPack

theorem prunePlan_ok (h : prunePlan C env w src snaps dry = .ok (some plan)) :
    ∃ sfs known here new r, loadForests C src (newTreeCache C) snaps = .ok sfs ∧
      prunedPacks src (reachableBlobs sfs) ≠ [] ∧
      Index.blobIds (freshIndex w src (reachableBlobs sfs)) = .ok known ∧
      pruneStart w (freshIndex w src (reachableBlobs sfs)) = .ok (plan.start, here) ∧
      ∃ s, walkSnapshots C src env (fun _ => true) sfs
        (⟨BMap.keys known ++ listedIds plan.start, []⟩, ReaderState.new) = .ok (new, (s, r)) ∧
      plan.main = (if dry then [] else here.map Op.up) ++ s.sent.map Op.send ∧
      plan.post = .ok (if dry then [] else prunePosts w src (reachableBlobs sfs)) := by
  unfold prunePlan at h
  split at h
  · cases h
  · rename_i sfs hsfs
    simp only at h
    split at h
    · cases h
    · rename_i hne
      split at h
      · cases h
      · rename_i known hk
        split at h
        · cases h
        · rename_i start here hst
          split at h
          · cases h
          · rename_i new s r hw
            cases h
            refine ⟨sfs, known, here, new, r, hsfs, ?_, hk, hst, s, hw, rfl, rfl⟩
            simpa [prunedPacks] using hne

/-- What a prune does not take up: an index that does not replace those there are. -/
theorem _root_.Backpak.Leftover.prune (h : Leftover C ids w)
    (hs : ∀ x, w.cwd.wip = some x → ¬ Replaces w x) : PruneLeft C ids w where
  names := h.names
  there := h.there
  sorted x hx hr := absurd hr (hs x hx)
  ledger x hx hr := absurd hr (hs x hx)
  needed x hx hr := absurd hr (hs x hx)

theorem some_index (hH : Healthy C ids w.repo) (ho : Opens w.repo src)
    {reach : List Id} (hne : prunedPacks src reach ≠ []) : BMap.keys w.repo.indexes ≠ [] := by
  obtain ⟨e, he⟩ := List.exists_mem_of_ne_nil _ hne
  obtain ⟨i, x, ⟨h1, _⟩, _⟩ := (opens_mem hH.sound ho e.1 e.2).mp (List.mem_filter.mp he).1
  exact List.ne_nil_of_mem (BMap.mem_keys_of_mem h1)

/-- What a prune starts from. -/
theorem prune_start (hH : Healthy C ids w.repo) (ho : Opens w.repo src)
    {reach : List Id} (hne : prunedPacks src reach ≠ []) {start : Index Id} {here : List Id}
    (h : pruneStart w (freshIndex w src reach) = .ok (start, here)) :
    (start = freshIndex w src reach ∧ here = []) ∨
    (w.cwd.wip = some start ∧ Replaces w start ∧ here = findCwdPacks w.cwd start ∧
      (∀ p ∈ BMap.keys start.packs, p ∈ here ∨ p ∈ BMap.keys w.repo.packs) ∧
      ∀ p ∈ BMap.keys (freshIndex w src reach).packs, p ∈ BMap.keys start.packs) := by
  unfold pruneStart at h
  cases hf : findResumable w with
  | error e => rw [hf] at h; cases h
  | ok r =>
    rw [hf] at h
    cases r with
    | none => cases h; exact .inl ⟨rfl, rfl⟩
    | some v =>
      obtain ⟨x, hs⟩ := v
      obtain ⟨hx, _, h2⟩ := C14.resumes_from w _ _ hf
      have hhere : hs = findCwdPacks w.cwd x := by
        unfold findResumable at hf
        rw [hx] at hf
        simp only at hf
        split at hf
        · cases hf; rfl
        · cases hf
      simp only [Except.map] at h
      split at h
      · cases h; exact .inl ⟨rfl, rfl⟩
      · rename_i hsup
        split at h
        · rename_i hall
          cases h
          refine .inr ⟨hx, ⟨?_, not_not.mp hsup⟩, hhere, h2, ?_⟩
          · rw [not_not.mp hsup]
            exact some_index hH ho hne
          · intro p hp
            exact BMap.get?_isSome_iff.mp (List.all_eq_true.mp hall p hp)
        · cases h; exact .inl ⟨rfl, rfl⟩

omit [LinearOrder Id] in
theorem forall₂_right {α β : Type} {P : α → β → Prop} {l : List α} {l' : List β}
    (h : List.Forall₂ P l l') : ∀ b ∈ l', ∃ a ∈ l, P a b := by
  induction h with
  | nil => simp
  | cons h1 _ ih =>
    intro b hb
    rcases List.mem_cons.mp hb with rfl | hb
    · exact ⟨_, List.mem_cons_self, h1⟩
    · obtain ⟨a, ha, hp⟩ := ih b hb
      exact ⟨a, List.mem_cons_of_mem _ ha, hp⟩

omit [LinearOrder Id] in
theorem forall₂_left {α β : Type} {P : α → β → Prop} {l : List α} {l' : List β}
    (h : List.Forall₂ P l l') : ∀ a ∈ l, ∃ b ∈ l', P a b := by
  induction h with
  | nil => simp
  | cons h1 _ ih =>
    intro b hb
    rcases List.mem_cons.mp hb with rfl | hb
    · exact ⟨_, List.mem_cons_self, h1⟩
    · obtain ⟨a, ha, hp⟩ := ih b hb
      exact ⟨a, List.mem_cons_of_mem _ ha, hp⟩

/-- What a prune sends is new to the packs it keeps, and with them is all that is needed. -/
theorem prune_blobs (hP : PruneOk C env ids w src snaps) {sfs : List (Snap Id × Forest Id)}
    (hsfs : loadForests C src (newTreeCache C) snaps = .ok sfs) {packed : List Id}
    {L : Id → Pack Id → Prop} (hL : ∀ p bs b, L p bs → b ∈ bs → b = emptyBlob C ∨ Has C w.repo b)
    (hpk : ∀ i, i ∈ packed ↔ ∃ p bs b, L p bs ∧ b ∈ bs ∧ b.id = i)
    {new : List (Snapshot Id)} {s : Sends Id} {r : ReaderState Id}
    (hw : walkSnapshots C src env (fun _ => true) sfs (⟨packed, []⟩, ReaderState.new) = .ok (new, (s, r))) :
    Fresh C L s.sent ∧ (∀ b ∈ s.sent, Needed C w.repo b.id ∧ (b = emptyBlob C ∨ Has C w.repo b)) ∧
    ∀ R', (∀ b, (b ∈ s.sent ∨ ∃ p bs, L p bs ∧ b ∈ bs) → Has C R' b) →
      (∀ i sn d, (i, sn) ∈ w.repo.snapshots → Holds C w.repo sn.tree d → Holds C R' sn.tree d) ∧
      ∀ i sn u, (i, sn) ∈ w.repo.snapshots → Reaches (TreeAt C w.repo) sn.tree u → ∃ b, Has C R' b ∧ b.id = u := by
  have hS := hP.healthy.sound
  obtain ⟨h1, h2⟩ := loadForests_sound hS hP.opens snaps newTreeCache_ok hsfs
  have hin : ∀ e ∈ sfs, (e.1.2, e.1.1) ∈ w.repo.snapshots := by
    intro e he
    refine (hP.loaded _ _).mpr ?_
    rw [← h1]
    exact List.mem_map.mpr ⟨e, he, rfl⟩
  obtain ⟨rs, h3, h4⟩ := walkSnapshots_ok hP.clock hS hP.opens (fun _ => true) sfs
    (fun e he => (h2 e he).1) (fun e he => hP.healthy.readable _ _ (hin e he))
  obtain ⟨r', h5, _⟩ := h4 ⟨packed, []⟩ ReaderState.new C33.settled_new
  rw [h5] at hw
  simp only [Except.ok.injEq, Prod.mk.injEq] at hw
  obtain ⟨_, hs, _⟩ := hw
  -- the blobs offered
  have hall : ∀ b ∈ rs.flatMap Prod.snd, ∃ e ∈ sfs, WellMade C b ∧ (b.kind = .chunk → Has C w.repo b) ∧
      PartOf C w.repo e.1.1.tree b := by
    intro b hb
    obtain ⟨q, hq, hb⟩ := List.mem_flatMap.mp hb
    obtain ⟨e, he, d, _, hd⟩ : ∃ e ∈ sfs, ∃ d, Holds C w.repo e.1.1.tree d ∧
        RepackedAs C w.repo (fun _ => true) e.1.1.tree d q.2 q.1 := by
      obtain ⟨e, he, d, h6, h7, _⟩ := forall₂_right h3 q hq
      exact ⟨e, he, d, h6, h7⟩
    exact ⟨e, he, (hd.made b hb).1, (hd.made b hb).2, hd.part (fun _ => rfl) b hb⟩
  have hhas : ∀ b ∈ rs.flatMap Prod.snd, b = emptyBlob C ∨ Has C w.repo b := by
    intro b hb
    obtain ⟨e, he, hm, hc, u, t, _, ht, hbt⟩ := hall b hb
    rcases hbt with rfl | ⟨hk, _⟩
    · rcases ht.2.2 with rfl | h
      · left
        have : u = C.emptyId := ht.2.1.symm
        rw [this]; rfl
      · exact .inr h
    · exact .inr (hc hk)
  have hempty : ∀ b ∈ rs.flatMap Prod.snd, b.id = C.emptyId → b = emptyBlob C := by
    intro b hb hid
    obtain ⟨e, he, hm, hc, u, t, _, ht, hbt⟩ := hall b hb
    rcases hbt with rfl | ⟨hk, _⟩
    · simp only at hid
      subst hid
      rw [hS.treeAt_one ht treeAt_nil]
      rfl
    · have := hc hk
      obtain ⟨d, i, k⟩ := b
      simp only at hid hk
      subst hid hk
      exact absurd this (hP.noEmpty d)
  obtain ⟨fresh, f1, f2, f3, f4, f5, f6⟩ := offer_all (rs.flatMap Prod.snd) ⟨packed, []⟩
  rw [hs] at f1
  simp only [List.nil_append] at f1
  rw [f1]
  have hmem : ∀ b ∈ fresh, b ∈ rs.flatMap Prod.snd := fun b hb => f2.subset hb
  refine ⟨⟨f3, ?_, ?_, ?_, ?_⟩, ?_, ?_⟩
  · intro b hb p cs hc b' hb' he
    exact f4 b hb ((hpk _).mpr ⟨p, cs, b', hc, hb', he⟩)
  · intro b hb
    obtain ⟨e, he, hm, _⟩ := hall b (hmem b hb)
    exact hm.ne
  · intro b hb
    obtain ⟨e, he, hm, _⟩ := hall b (hmem b hb)
    exact hm.hash
  · intro b hb hk
    obtain ⟨e, he, hm, _⟩ := hall b (hmem b hb)
    obtain ⟨t, t1, t2⟩ := hm.tree hk
    refine ⟨t, t1, t2, fun hid => ?_⟩
    rw [hempty b (hmem b hb) hid] at t2
    exact (enc_inj okTree_nil t1 t2).symm
  · intro b hb
    obtain ⟨e, he, hm, hc, u, t, hr, ht, hbt⟩ := hall b (hmem b hb)
    refine ⟨⟨e.1.2, e.1.1, hin e he, u, t, hr, ht, ?_⟩, hhas b (hmem b hb)⟩
    rcases hbt with rfl | ⟨_, hk⟩
    · exact .inl rfl
    · exact .inr hk
  · intro R' hR
    refine ⟨fun i sn d hsn hd => ?_, fun i sn u hsn hu => ?_⟩
    rotate_left
    · have hsn' := (hP.loaded _ _).mp hsn
      rw [← h1] at hsn'
      obtain ⟨e, he, heq⟩ := List.mem_map.mp hsn'
      obtain ⟨q, hq, d, hd, _, _, htr⟩ := forall₂_left h3 e he
      have htree : e.1.1.tree = sn.tree := by rw [heq]
      have hFe := (h2 e he).1
      obtain ⟨b, hb, hbu⟩ := filterTree_all hS (fun id t h => ((hFe id t).mp h).2) (by rw [htree]; exact hu) hd
        (e.2.length + 1) [] ((hFe.tall (holds_grounded hd)).mono (Nat.le_succ _))
      have hb' := List.mem_flatMap.mpr ⟨q, hq, ((htr b).mpr hb).1⟩
      rcases f6 b hb' with h | h
      · obtain ⟨p, bs, b', h6, h7, h8⟩ := (hpk _).mp h
        exact ⟨b', hR b' (.inr ⟨p, bs, h6, h7⟩), h8.trans hbu⟩
      · obtain ⟨b', h6, h7⟩ := List.mem_map.mp h
        exact ⟨b', hR b' (.inl h6), h7.trans hbu⟩
    have hcover : ∀ b ∈ rs.flatMap Prod.snd, b = emptyBlob C ∨ Has C R' b := by
      intro b hb
      rcases hhas b hb with h | hb'
      · exact .inl h
      · rcases f6 b hb with h | h
        · obtain ⟨p, bs, b', h6, h7, h8⟩ := (hpk _).mp h
          rcases hL p bs b' h6 h7 with h9 | h9
          · left
            refine hempty b hb ?_
            rw [← h8, h9]; rfl
          · have := hS.has_one h9 hb' h8
            subst this
            exact .inr (hR b' (.inr ⟨p, bs, h6, h7⟩))
        · obtain ⟨b', h6, h7⟩ := List.mem_map.mp h
          rcases hhas b' (hmem b' h6) with h8 | h8
          · left
            refine hempty b hb ?_
            rw [← h7, h8]; rfl
          · have := hS.has_one h8 hb' h7
            subst this
            exact .inr (hR b' (.inl h6))
    have hsn' := (hP.loaded _ _).mp hsn
    rw [← h1] at hsn'
    obtain ⟨e, he, heq⟩ := List.mem_map.mp hsn'
    obtain ⟨q, hq, d', hd', hrep, _⟩ := forall₂_left h3 e he
    have htree : e.1.1.tree = sn.tree := by rw [heq]
    rw [htree] at hd' hrep
    have := holds_one hS hd hd'
    subst this
    have := hrep.holds R' (fun b hb => hcover b (List.mem_flatMap.mpr ⟨q, hq, hb⟩))
    rw [hrep.same (fun _ => rfl)] at this
    obtain ⟨t, _, hdt⟩ := hd
    rwa [keep_all hdt] at this

theorem blobIds_iff {x : Index Id} {known : BMap Id Unit} (h : Index.blobIds x = .ok known) (i : Id) :
    i ∈ BMap.keys known ↔ i ∈ listedIds x := by
  obtain ⟨_, _, hs, hmem⟩ := (Index.table_iff (fun _ _ => ()) x.packs [] BMap.sorted_nil).1 known h
  unfold listedIds
  rw [List.mem_flatMap]
  constructor
  · intro h
    obtain ⟨v, hv⟩ := BMap.mem_keys_iff.mp h
    rcases (hmem i v).mp (BMap.mem_of_get? hv) with h | ⟨p, m, e, h1, h2, h3, _⟩
    · cases h
    · exact ⟨(p, m), h1, List.mem_map.mpr ⟨e, h2, h3⟩⟩
  · rintro ⟨⟨p, m⟩, h1, h2⟩
    obtain ⟨e, h2, h3⟩ := List.mem_map.mp h2
    exact BMap.mem_keys_of_mem (v := ()) ((hmem i ()).mpr (.inr ⟨p, m, e, h1, h2, h3, rfl⟩))

/-- What a prune has to work with. -/
structure Pruning (C : Codec Id) (ids : Ids Id) (cores : Nat) (w : World Id) (src : Source Id)
    (plan : Plan Id) (c : Cfg Id) (reach : List Id) : Prop where
  cfg : c = ⟨ids, true, cores, plan.start, Involved w plan.main⟩
  sup : plan.start.supersedes = BMap.keys w.repo.indexes
  all : ∀ e ∈ (freshIndex w src reach).packs, e ∈ plan.start.packs
  exact : ∀ i, i ∈ reach ↔ Needed C w.repo i
  work : prunedPacks src reach ≠ []
  posts : plan.posts = prunePosts w src reach
  main : ∃ here, plan.main = mainOf here (sends plan.main) ∧ (∀ p ∈ here, p ∈ BMap.keys w.cwd.packs) ∧
    (BMap.Sorted w.cwd.packs → here.Nodup)
  run : RunOk c w plan.main
  ledger : Ledger C (StartPack c)
  fresh : Fresh C (StartPack c) (sends plan.main)
  new : IndexNew c w.repo (sends plan.main)
  needed : ∀ b ∈ sends plan.main, Needed C w.repo b.id ∧ (b = emptyBlob C ∨ Has C w.repo b)
  kept : ∀ p bs b, StartPack c p bs → b ∈ bs → Needed C w.repo b.id ∧ (b = emptyBlob C ∨ Has C w.repo b)
  holds : ∀ R', (∀ b, (b ∈ sends plan.main ∨ ∃ p bs, StartPack c p bs ∧ b ∈ bs) → Has C R' b) →
      ∀ i sn d, (i, sn) ∈ w.repo.snapshots → Holds C w.repo sn.tree d → Holds C R' sn.tree d
  stored : ∀ R', (∀ b, (b ∈ sends plan.main ∨ ∃ p bs, StartPack c p bs ∧ b ∈ bs) → Has C R' b) →
      ∀ i sn u, (i, sn) ∈ w.repo.snapshots → Reaches (TreeAt C w.repo) sn.tree u → ∃ b, Has C R' b ∧ b.id = u

/-- The index a prune starts from, and the packs it uploads first. -/
structure Starts (C : Codec Id) (w : World Id) (src : Source Id) (reach : List Id) (c : Cfg Id)
    (here : List Id) : Prop where
  sup : c.start.supersedes = BMap.keys w.repo.indexes
  sorted : BMap.Sorted c.start.packs
  good : ∀ p m, (p, m) ∈ c.start.packs → ∃ bs, Good c p bs ∧ m = Pack.manifestOf bs
  there : ∀ p ∈ BMap.keys c.start.packs, p ∈ here ∨ p ∈ BMap.keys w.repo.packs
  local_ : ∀ p ∈ here, p ∈ BMap.keys w.cwd.packs
  nodup : BMap.Sorted w.cwd.packs → here.Nodup
  all : ∀ e ∈ (freshIndex w src reach).packs, e ∈ c.start.packs
  ledger : Ledger C (StartPack c)
  kept : ∀ p bs b, StartPack c p bs → b ∈ bs → Needed C w.repo b.id ∧ (b = emptyBlob C ∨ Has C w.repo b)

theorem starts (hP : PruneOk C env ids w src snaps) {reach : List Id} (hex : ∀ i ∈ reach, Needed C w.repo i)
    (hne : prunedPacks src reach ≠ []) {c : Cfg Id} {here : List Id} (hinj : PackInj c)
    (hgoodR : ∀ p bs, (p, bs) ∈ w.repo.packs → Good c p bs)
    (hgoodC : ∀ p bs, (p, bs) ∈ w.cwd.packs → Good c p bs)
    (h : pruneStart w (freshIndex w src reach) = .ok (c.start, here)) : Starts C w src reach c here := by
  have hS := hP.healthy.sound
  have hfreshL : ∀ p m, (p, m) ∈ (freshIndex w src reach).packs → Listed w.repo.indexes p m :=
    fun p m hm => (opens_mem hS hP.opens p m).mp (List.mem_filter.mp hm).1
  rcases prune_start hP.healthy hP.opens hne h with ⟨hcs, rfl⟩ | ⟨hw, hrep, rfl, hthere, hall⟩
  · have hsl : ∀ p bs, StartPack c p bs → LivePack w.repo p bs := by
      rintro p bs ⟨a, b⟩
      rw [hcs] at a
      have hl := hfreshL p _ a
      obtain ⟨cs, hcs, _⟩ := hS.present p _ hl
      have := Good_unique hinj b (hgoodR p cs hcs)
      subst this
      exact ⟨hl, hcs⟩
    refine ⟨by rw [hcs]; rfl, ?_, ?_, ?_, by simp, fun _ => .nil, fun e he => by rw [hcs]; exact he,
      hS.ledger.mono hsl, ?_⟩
    · rw [hcs]
      exact List.Pairwise.sublist ((List.filter_sublist).map _) (opens_packs_sorted hP.opens)
    · intro p m hm
      rw [hcs] at hm
      obtain ⟨bs, hb, rfl⟩ := hS.present p m (hfreshL p m hm)
      exact ⟨bs, hgoodR p bs hb, rfl⟩
    · intro p hp
      rw [hcs] at hp
      obtain ⟨m, hm⟩ := BMap.mem_keys_iff.mp hp
      obtain ⟨bs, hb, _⟩ := hS.present p m (hfreshL p m (BMap.mem_of_get? hm))
      exact .inr (BMap.mem_keys_of_mem hb)
    · intro p bs b h hb
      have hl := hsl p bs h
      refine ⟨?_, .inr ((hS.has_iff b).mpr ⟨p, bs, hl.1, hl.2, hb⟩)⟩
      have hm := h.1
      rw [hcs] at hm
      have := (List.mem_filter.mp hm).2
      simp only [reusable, List.all_eq_true, List.contains_iff_mem] at this
      exact hex _ (this _ (List.mem_map.mpr ⟨b, hb, rfl⟩))
  · have hgood : ∀ p bs, (p, bs) ∈ w.cwd.packs ∨ (p, bs) ∈ w.repo.packs → Good c p bs := by
      rintro p bs (h | h)
      · exact hgoodC p bs h
      · exact hgoodR p bs h
    have hsl : ∀ p bs, StartPack c p bs → WipPack w p bs := by
      rintro p bs ⟨a, b⟩
      obtain ⟨cs, h1, h2⟩ := hP.leftover.there _ p _ hw a
      have := Good_unique hinj b (hgood p cs h1)
      subst this
      exact ⟨_, hw, a, h1⟩
    refine ⟨hrep.2, hP.leftover.sorted _ hw hrep, ?_, hthere, fun p hp => (List.mem_filter.mp hp).1,
      fun hs => hs.nodup.filter _, ?_, (hP.leftover.ledger _ hw hrep).mono hsl,
      fun p bs b h hb => hP.leftover.needed _ hw hrep p bs b (hsl p bs h) hb⟩
    · intro p m hm
      obtain ⟨cs, h1, h2⟩ := hP.leftover.there _ p _ hw hm
      exact ⟨cs, hgood p cs h1, h2⟩
    · rintro ⟨p, m⟩ he
      obtain ⟨m', hm'⟩ := BMap.mem_keys_iff.mp (hall p (BMap.mem_keys_of_mem he))
      have hm' := BMap.mem_of_get? hm'
      obtain ⟨cs, h1, rfl⟩ := hP.leftover.there _ p _ hw hm'
      obtain ⟨bs, hb, rfl⟩ := hS.present p m (hfreshL p m he)
      have := Good_unique hinj (hgoodR p bs hb) (hgood p cs h1)
      subst this
      exact hm'

theorem pruning (hP : PruneOk C env ids w src snaps) (hN : PruneNoClash ids cores w plan)
    (hp : prunePlan C env w src snaps false = .ok (some plan)) :
    ∃ c reach, Pruning C ids cores w src plan c reach := by
  obtain ⟨sfs, known, here, new, r, h1, h2, h3, h4, s, h5, h6, h7⟩ := prunePlan_ok hp
  have hS := hP.healthy.sound
  have hmain : plan.main = mainOf here s.sent := by rw [h6]; rfl
  have hsends : sends plan.main = s.sent := by rw [hmain, sends_mainOf]
  generalize hreach : reachableBlobs sfs = reach at *
  generalize hc : (⟨ids, true, cores, plan.start, Involved w plan.main⟩ : Cfg Id) = c
  have hcs : c.start = plan.start := by rw [← hc]
  have hgoodR : ∀ p bs, (p, bs) ∈ w.repo.packs → Good c p bs := by
    intro p bs hb
    rw [← hc]
    exact ⟨hP.healthy.pack_names p bs hb, .inl ⟨p, hb⟩⟩
  have hgoodC : ∀ p bs, (p, bs) ∈ w.cwd.packs → Good c p bs := by
    intro p bs hb
    rw [← hc]
    exact ⟨hP.leftover.names p bs hb, .inr (.inl ⟨p, hb⟩)⟩
  have hinj : PackInj c := by
    rw [← hc]; exact hN.packs
  have hex : ∀ i, i ∈ reach ↔ Needed C w.repo i := by
    rw [← hreach]; exact reachable_iff hP h1
  have hst := starts hP (fun i hi => (hex i).mp hi) h2 hinj hgoodR hgoodC (by rw [hcs]; exact h4)
  have hfresh := prune_blobs hP h1 (packed := BMap.keys known ++ listedIds plan.start) (L := StartPack c)
    (fun p bs b h hb => (hst.kept p bs b h hb).2) (by
    intro i
    have hk : i ∈ BMap.keys known ++ listedIds plan.start ↔ i ∈ listedIds c.start := by
      rw [List.mem_append, blobIds_iff h3, hcs]
      refine or_iff_right_of_imp (fun hi => ?_)
      unfold listedIds at hi ⊢
      obtain ⟨e, he, hi⟩ := List.mem_flatMap.mp hi
      exact List.mem_flatMap.mpr ⟨e, hcs ▸ hst.all e he, hi⟩
    rw [hk]
    unfold listedIds
    rw [List.mem_flatMap]
    constructor
    · rintro ⟨⟨p, m⟩, hm, hi⟩
      obtain ⟨bs, hg, rfl⟩ := hst.good p m hm
      rw [entry_ids] at hi
      obtain ⟨b, hb', rfl⟩ := List.mem_map.mp hi
      exact ⟨p, bs, b, ⟨hm, hg⟩, hb', rfl⟩
    · rintro ⟨p, bs, b, ⟨hm, _⟩, hb, rfl⟩
      refine ⟨_, hm, ?_⟩
      rw [entry_ids]
      exact List.mem_map.mpr ⟨b, hb, rfl⟩) h5
  obtain ⟨f1, f2, f3⟩ := hfresh
  refine ⟨c, reach, hc.symm, hcs ▸ hst.sup, fun e he => hcs ▸ hst.all e he, hex, h2, ?_,
    ⟨here, ?_, hst.local_, hst.nodup⟩, ?_, hst.ledger, ?_, ?_, ?_, hst.kept, ?_, ?_⟩
  · unfold Plan.posts; rw [h7]; rfl
  · rw [hsends]; exact hmain
  · refine ⟨by rw [← hc], hinj, ⟨hgoodC, hgoodR, hS.packs_sorted, hS.indexes_sorted⟩, ?_, hst.sorted, hst.good, ?_⟩
    · intro p hp
      rcases hst.there p hp with h | h
      · exact .inr (by rw [hmain]; exact List.mem_append_left _ (List.mem_map.mpr ⟨p, h, rfl⟩))
      · exact .inl h
    · rw [hsends]; exact f1.ne
  · rw [hsends]; exact f1
  · have := hN.indexes
    rintro x ⟨x1, x2, news, rest, x3, x4, x5, x6⟩
    have := this x ⟨by rw [x1, ← hc]; rfl, x2, news, rest, x3,
      fun e he => ⟨by have := (x4 e he).1; rw [← hc] at this; exact this, trivial⟩, x5,
      by rw [← hc] at x6; exact x6⟩
    rw [← hc]
    exact this
  · rw [hsends]; exact f2
  · rw [hsends]; exact fun R' hR => (f3 R' hR).1
  · rw [hsends]; exact fun R' hR => (f3 R' hR).2

theorem Pruning.reachable {c : Cfg Id} {reach : List Id} (h : Pruning C ids cores w src plan c reach)
    {s : State Id} (hs : Reachable (liveCfg ids cores plan.start) w plan.main s) :
    Reachable c w plan.main s := by
  rw [h.cfg]
  exact reachable_allowed (c := liveCfg ids cores plan.start)
    (c' := ⟨ids, true, cores, plan.start, Involved w plan.main⟩)
    rfl rfl rfl rfl (fun cur hc => .inr (.inr hc)) hs

/-- The new index lists none of the packs that are removed. -/
theorem Pruning.disjoint {c : Cfg Id} {reach : List Id} (h : Pruning C ids cores w src plan c reach)
    (hP : PruneOk C env ids w src snaps)
    {R' : Repo Id} {x : Index Id} {news : List (Id × Pack Id)}
    (hn : NewIndex c w.repo R' (sends plan.main) x news) :
    ∀ p ∈ BMap.keys (prunedPacks src reach), p ∉ BMap.keys x.packs := by
  intro p hp hx
  have hS := hP.healthy.sound
  obtain ⟨⟨q, m⟩, hm, rfl⟩ := List.mem_map.mp hp
  obtain ⟨hm1, hm2⟩ := List.mem_filter.mp hm
  have hl := (opens_mem hS hP.opens q m).mp hm1
  obtain ⟨bs, hb, rfl⟩ := hS.present q m hl
  obtain ⟨⟨q', m'⟩, hx', heq⟩ := List.mem_map.mp hx
  simp only at heq
  subst heq
  simp only [Bool.not_eq_true', reusable, List.all_eq_false] at hm2
  obtain ⟨e, he, hne⟩ := hm2
  simp only [List.contains_iff_mem] at hne
  rcases List.mem_append.mp (hn.packs.subset hx') with hy | hx
  · obtain ⟨cs, hg, rfl⟩ := h.run.startGood _ _ hy
    have := Good_unique h.run.inj hg (h.run.world.repo _ _ hb)
    subst this
    obtain ⟨b, hb', rfl⟩ := List.mem_map.mp he
    exact hne ((h.exact _).mpr (h.kept _ _ b ⟨hy, hg⟩ hb').1)
  · obtain ⟨⟨q, cs⟩, hc, heq⟩ := List.mem_map.mp hx
    simp only [Prod.mk.injEq] at heq
    obtain ⟨rfl, rfl⟩ := heq
    have hg := hn.good _ hc
    have hg' : Good c q bs := h.run.world.repo _ _ hb
    have := Good_unique h.run.inj hg hg'
    simp only at this
    subst this
    obtain ⟨b, hb', rfl⟩ := List.mem_map.mp he
    refine hne ((h.exact _).mpr (h.needed b ?_).1)
    exact hn.blobs.subset (List.mem_flatMap.mpr ⟨_, hc, hb'⟩)

theorem Pruning.joined_index {c : Cfg Id} {reach : List Id} (h : Pruning C ids cores w src plan c reach)
    (hP : PruneOk C env ids w src snaps) {s : State Id} (hs : Reachable c w plan.main s)
    (hj : s.joined = true) : s.world.repo.indexes ≠ w.repo.indexes := by
  have hne := some_index hP.healthy hP.opens h.work
  rcases effect_joined h.run hs hj with ⟨h1, _, _⟩ | ⟨x, news, hn⟩
  · have hcs : c.start.supersedes = BMap.keys w.repo.indexes := by rw [h.cfg]; exact h.sup
    simp only [Index.isEmpty, Bool.and_eq_true, List.isEmpty_iff] at h1
    exact absurd (hcs.symm.trans h1.1) hne
  · intro heq
    have := (h.new x hn.writes).1
    refine this ?_
    rw [← heq, hn.put]
    exact BMap.keys_insert_mem.mpr (.inl rfl)

/-- A repository at any instant of a prune's pipeline. -/
theorem Pruning.now {c : Cfg Id} {reach : List Id} (h : Pruning C ids cores w src plan c reach)
    (hP : PruneOk C env ids w src snaps) {s : State Id} (hs : Reachable c w plan.main s) :
    Healthy C ids s.world.repo ∧ s.world.repo.snapshots = w.repo.snapshots ∧
    (∀ i sn d, (i, sn) ∈ w.repo.snapshots → Holds C w.repo sn.tree d → Holds C s.world.repo sn.tree d) ∧
    (s.joined = true → ∃ x news, NewIndex c w.repo s.world.repo (sends plan.main) x news ∧
      Sole s.world.repo (ids.indexId x) x ∧
      ∀ b, Has C s.world.repo b ↔ (b ∈ sends plan.main ∨ ∃ p bs, StartPack c p bs ∧ b ∈ bs)) := by
  have hH := hP.healthy
  have hids : c.ids = ids := by rw [h.cfg]
  have hsup : c.start.supersedes = BMap.keys w.repo.indexes := by rw [h.cfg]; exact h.sup
  have he := effect h.run hs
  have hrep := replace h.run hH.sound hsup h.ledger h.fresh h.new hs
  have hkeep : ∀ i sn d, (i, sn) ∈ w.repo.snapshots → Holds C w.repo sn.tree d →
      Holds C s.world.repo sn.tree d := by
    intro i sn d h1 h2
    rcases hrep with ⟨_, _, h3⟩ | ⟨_, _, _, _, _, h3⟩
    · exact has_mono_holds h3 h2
    · exact h.holds _ (fun b hb => (h3 b).mpr hb) i sn d h1 h2
  have hsound : Sound C s.world.repo := by
    rcases hrep with ⟨_, h3, _⟩ | ⟨_, _, _, h3, _, _⟩ <;> exact h3
  refine ⟨?_, he.snaps, hkeep, ?_⟩
  · refine ⟨hsound.packs_sorted, hsound.indexes_sorted, by rw [he.snaps]; exact hH.snapshots_sorted,
      fun p bs h1 => by rw [← hids]; exact (he.names p bs h1).1, ?_, ?_, hsound.present,
      hsound.distinct, hsound.once, hsound.one_kind, hsound.hashes, hsound.trees, hsound.full, ?_⟩
    · intro i x h1
      rcases he.idx with h2 | ⟨y, ns, h2⟩
      · rw [h2] at h1; exact hH.index_names i x h1
      · rw [h2.put] at h1
        rcases BMap.mem_insert_of h1 with ⟨rfl, rfl⟩ | h1
        · rw [hids]
        · exact hH.index_names i x h1
    · intro i x h1
      rcases he.idx with h2 | ⟨y, ns, h2⟩
      · rw [h2] at h1; exact hH.index_packs i x h1
      · rw [h2.put] at h1
        rcases BMap.mem_insert_of h1 with ⟨_, rfl⟩ | h1
        · exact h2.sorted
        · exact hH.index_packs i x h1
    · intro i sn h1
      rw [he.snaps] at h1
      obtain ⟨d, hd⟩ := hH.readable i sn h1
      exact ⟨d, hkeep i sn d h1 hd⟩
  · intro hj
    rcases hrep with ⟨h1, _⟩ | ⟨x, news, h1, _, h2, h3⟩
    · exact absurd h1 (h.joined_index hP hs hj)
    · exact ⟨x, news, h1, by rw [← hids]; exact h2, h3⟩

/-- And after any number of the removals that follow. -/
theorem Pruning.later {c : Cfg Id} {reach : List Id} (h : Pruning C ids cores w src plan c reach)
    (hP : PruneOk C env ids w src snaps) {s : State Id} (hs : Reachable c w plan.main s)
    (hj : s.joined = true) {done rest : List (Post Id)} (hd : plan.posts = done ++ rest) :
    ∃ x news, NewIndex c w.repo s.world.repo (sends plan.main) x news ∧
      (∀ p ∈ BMap.keys (prunedPacks src reach), p ∉ BMap.keys x.packs) ∧
      Trimmed C s.world.repo (done.foldl (applyPost ids) s.world.repo) (ids.indexId x) x ∧
      ∀ b, Has C s.world.repo b ↔ (b ∈ sends plan.main ∨ ∃ p bs, StartPack c p bs ∧ b ∈ bs) := by
  obtain ⟨h1, _, _, h4⟩ := h.now hP hs
  obtain ⟨x, news, hn, hx, hb⟩ := h4 hj
  have hdis := h.disjoint hP hn
  have hids : c.ids = ids := by rw [h.cfg]
  refine ⟨x, news, hn, hdis, trim_all ids h1.sound hx done ?_, hb⟩
  intro o ho
  have ho : o ∈ plan.posts := by rw [hd]; exact List.mem_append_left _ ho
  rw [h.posts, prunePosts, List.mem_append, List.mem_map, List.mem_map] at ho
  rcases ho with ⟨j, hj, rfl⟩ | ⟨p, hp, rfl⟩
  · refine .inl ⟨j, rfl, ?_⟩
    rintro rfl
    have := (h.new x hn.writes).1
    rw [hids] at this
    exact this hj
  · exact .inr ⟨p, rfl, hdis p hp⟩

theorem _root_.Backpak.Trimmed.healthy {R R' : Repo Id} {i : Id} {x : Index Id} (h : Trimmed C R R' i x)
    (hH : Healthy C ids R) : Healthy C ids R' :=
  ⟨h.sound.packs_sorted, h.sound.indexes_sorted, by rw [h.snaps]; exact hH.snapshots_sorted,
    fun p bs h1 => hH.pack_names p bs (h.packs _ h1), fun i x h1 => hH.index_names i x (h.indexes _ h1),
    fun i x h1 => hH.index_packs i x (h.indexes _ h1), h.sound.present, h.sound.distinct, h.sound.once,
    h.sound.one_kind, h.sound.hashes, h.sound.trees, h.sound.full, fun i sn h1 => by
      rw [h.snaps] at h1
      obtain ⟨d, hd⟩ := hH.readable i sn h1
      exact ⟨d, has_mono_holds (fun b => (h.has b).mpr) hd⟩⟩

theorem erase_keys {A : Type} {m : BMap Id A} {i j : Id} (h : j ∉ BMap.keys m) : j ∉ BMap.keys (m.erase i) := by
  intro hj
  obtain ⟨v, hv⟩ := BMap.mem_keys_iff.mp hj
  exact h (BMap.mem_keys_of_mem (BMap.mem_erase_iff.mp (BMap.mem_of_get? hv)).2)

/-- What is removed is gone. -/
theorem gone (ops : List (Post Id)) (R : Repo Id) (hops : ∀ o ∈ ops, ∀ sn, o ≠ .putSnap sn) :
    (∀ j, Post.rmIndex j ∈ ops ∨ j ∉ BMap.keys R.indexes →
      j ∉ BMap.keys (ops.foldl (applyPost ids) R).indexes) ∧
    ∀ p, Post.rmPack p ∈ ops ∨ p ∉ BMap.keys R.packs → p ∉ BMap.keys (ops.foldl (applyPost ids) R).packs := by
  have hself : ∀ {A : Type} (m : BMap Id A) (i : Id), i ∉ BMap.keys (m.erase i) := by
    intro A m i hi
    obtain ⟨v, hv⟩ := BMap.mem_keys_iff.mp hi
    exact (BMap.mem_erase_iff.mp (BMap.mem_of_get? hv)).1 rfl
  induction ops generalizing R with
  | nil => exact ⟨fun j h => h.elim (fun h => by cases h) (fun h => h), fun p h => h.elim (fun h => by cases h) (fun h => h)⟩
  | cons o ops ih =>
    obtain ⟨h1, h2⟩ := ih (applyPost ids R o) (fun o' ho => hops o' (List.mem_cons_of_mem _ ho))
    rw [List.foldl_cons]
    constructor
    · intro j hj
      apply h1
      rcases hj with hj | hj
      · rcases List.mem_cons.mp hj with rfl | hj
        · exact .inr (hself _ _)
        · exact .inl hj
      · right
        cases o with
        | putSnap sn => exact hj
        | rmIndex k => exact erase_keys hj
        | rmPack k => exact hj
    · intro p hp
      apply h2
      rcases hp with hp | hp
      · rcases List.mem_cons.mp hp with rfl | hp
        · exact .inr (hself _ _)
        · exact .inl hp
      · right
        cases o with
        | putSnap sn => exact hp
        | rmIndex k => exact hp
        | rmPack k => exact erase_keys hp

/-! ## What is needed stays -/

section Kept

variable {R R' : Repo Id}

theorem treeAt_kept (hold : ∀ b, Has C R' b → Has C R b ∨ b = emptyBlob C) {u : Id} {t : Tree Id}
    (h : TreeAt C R' u t) : TreeAt C R u t := by
  obtain ⟨h1, h2, h3⟩ := h
  refine ⟨h1, h2, ?_⟩
  rcases h3 with h3 | h3
  · exact .inl h3
  · rcases hold _ h3 with h4 | h4
    · exact .inr h4
    · left
      have : C.encTree t = C.encTree [] := congrArg Blob.data h4
      exact (enc_inj okTree_nil h1 this.symm).symm

theorem reaches_kept (hS : Sound C R) (hold : ∀ b, Has C R' b → Has C R b ∨ b = emptyBlob C)
    {root u : Id} (h : Reaches (TreeAt C R) root u) : ∀ {d}, Holds C R' root d →
    Reaches (TreeAt C R') root u ∧ ∃ d', Holds C R' u d' := by
  induction h with
  | refl => exact fun hd => ⟨.refl, _, hd⟩
  | @step id t n sub md id' ht hm _ ih =>
    rintro d ⟨t', ht', hd⟩
    have := hS.treeAt_one ht (treeAt_kept hold ht')
    subst this
    obtain ⟨t2, d2, h1, h2⟩ := holds_sub hd hm
    obtain ⟨h3, h4⟩ := ih ⟨t2, h1, h2⟩
    exact ⟨.step ht' hm h3, h4⟩

omit [LinearOrder Id] in
theorem holds_chunk {PT : Id → Tree Id → Prop} {t : Tree Id} {d : Dir Bytes}
    (h : DirRel (FileHolds C R) PT t d) : ∀ {c}, c ∈ chunksInTree t → ∃ x, Has C R ⟨x, c, .chunk⟩ := by
  have file : ∀ {cs x}, FileHolds C R cs x → ∀ {c}, c ∈ cs → ∃ x, Has C R ⟨x, c, .chunk⟩ := by
    intro cs x hf
    induction hf with
    | nil => intro c hc; cases hc
    | cons h1 _ ih =>
      intro c hc
      rcases List.mem_cons.mp hc with rfl | hc
      · exact ⟨_, h1⟩
      · exact ih hc
  unfold chunksInTree
  induction h with
  | nil => intro c hc; cases hc
  | file h1 _ ih =>
    intro c hc
    rw [List.flatMap_cons, List.mem_append] at hc
    rcases hc with hc | hc
    · exact file h1 hc
    · exact ih hc
  | link _ ih =>
    intro c hc
    rw [List.flatMap_cons, List.mem_append] at hc
    rcases hc with hc | hc
    · cases hc
    · exact ih hc
  | dir _ _ _ _ ih =>
    intro c hc
    rw [List.flatMap_cons, List.mem_append] at hc
    rcases hc with hc | hc
    · cases hc
    · exact ih hc

/-- If all snapshots can still be read, and what can be found could be found before, then whatever
they need can be found, and they need no less. -/
theorem needed_kept (hS : Sound C R) (hold : ∀ b, Has C R' b → Has C R b ∨ b = emptyBlob C)
    (hsn : R'.snapshots = R.snapshots) (hr : ∀ i s, (i, s) ∈ R.snapshots → ∃ d, Holds C R' s.tree d)
    {i : Id} (hi : Needed C R i) :
    Needed C R' i ∧ (i = C.emptyId ∨ ∃ b, Has C R' b ∧ b.id = i) := by
  obtain ⟨j, s, hs, u, t, h1, h2, h3⟩ := hi
  obtain ⟨d, hd⟩ := hr j s hs
  obtain ⟨h4, d', t', ht', hd'⟩ := reaches_kept hS hold h1 hd
  have := hS.treeAt_one h2 (treeAt_kept hold ht')
  subst this
  refine ⟨⟨j, s, by rw [hsn]; exact hs, u, t, h4, ht', h3⟩, ?_⟩
  rcases h3 with rfl | h3
  · rcases ht'.2.2 with rfl | h5
    · exact .inl ht'.2.1.symm
    · exact .inr ⟨_, h5, rfl⟩
  · obtain ⟨x, hx⟩ := holds_chunk hd' h3
    exact .inr ⟨_, hx, rfl⟩

end Kept

theorem Pruning.old {c : Cfg Id} {reach : List Id} (h : Pruning C ids cores w src plan c reach) {b : Blob Id}
    (hb : b ∈ sends plan.main ∨ ∃ p bs, StartPack c p bs ∧ b ∈ bs) :
    Needed C w.repo b.id ∧ (Has C w.repo b ∨ b = emptyBlob C) := by
  rcases hb with hb | ⟨p, bs, h1, h2⟩
  · obtain ⟨h1, h2⟩ := h.needed b hb
    exact ⟨h1, h2.symm⟩
  · obtain ⟨h3, h4⟩ := h.kept p bs b h1 h2
    exact ⟨h3, h4.symm⟩

/-- A prune can finish. -/
theorem Pruning.given {c : Cfg Id} {reach : List Id} (h : Pruning C ids cores w src plan c reach)
    (hN : PruneNoClash ids cores w plan) (hw : BMap.Sorted w.cwd.packs) :
    ∃ here, plan.main = mainOf here (sends plan.main) ∧ C16.Given c w here (sends plan.main) := by
  obtain ⟨here, hm, hh, hnd⟩ := h.main
  refine ⟨here, hm, h.run.world, hnd hw, hh, h.run.startSort, h.fresh.ne, h.fresh.nodup.of_map _, ?_, ?_, ?_⟩
  · intro p m hm
    obtain ⟨bs, hg, rfl⟩ := h.run.startGood p m hm
    exact ⟨bs, hg, rfl, fun b hb hbs => h.fresh.new b hb p bs ⟨hm, hg⟩ b hbs rfl⟩
  · intro bs hb
    have hb : FormedBy (mainOf here (sends plan.main)) bs := hb
    rw [← hm] at hb
    rw [h.cfg]
    exact .inr (.inr hb)
  · have := hN.packs
    rw [h.cfg]
    exact this

theorem Pruning.finishes {c : Cfg Id} {reach : List Id} (h : Pruning C ids cores w src plan c reach)
    (hN : PruneNoClash ids cores w plan) (hw : BMap.Sorted w.cwd.packs) (hcores : 4 ≤ cores) {s : State Id}
    (hs : Reachable (liveCfg ids cores plan.start) w plan.main s) :
    ∃ t, Relation.ReflTransGen (Step (liveCfg ids cores plan.start)) s t ∧ t.joined = true := by
  have h' := h.reachable hs
  obtain ⟨here, hm, hg⟩ := h.given hN hw
  rw [hm] at h'
  obtain ⟨⟨t, ht, hj⟩, _⟩ := C16.finishes_partial c w here (sends plan.main) s
    (by rw [h.cfg]; exact hcores) hg h'
  refine ⟨t, ?_, hj⟩
  have hc := h.cfg
  subst hc
  clear hj
  induction ht with
  | refl => exact .refl
  | tail _ hs ih => exact ih.tail (step_allowed hs)

/-- In good order, a prune gets as far as starting its threads, or has nothing to do. -/
theorem prune_succeeds (hP : PruneOk C env ids w src snaps) (dry : Bool) :
    ∃ r, prunePlan C env w src snaps dry = .ok r := by
  have hS := hP.healthy.sound
  obtain ⟨sfs, h1⟩ := loadForests_ok hS hP.opens snaps
    (fun s hs => hP.healthy.readable _ _ ((hP.loaded _ _).mpr hs)) newTreeCache_ok
  obtain ⟨h2, h3⟩ := loadForests_sound hS hP.opens snaps newTreeCache_ok h1
  have hin : ∀ e ∈ sfs, (e.1.2, e.1.1) ∈ w.repo.snapshots := by
    intro e he
    refine (hP.loaded _ _).mpr ?_
    rw [← h2]
    exact List.mem_map.mpr ⟨e, he, rfl⟩
  obtain ⟨rs, _, h4⟩ := walkSnapshots_ok hP.clock hS hP.opens (fun _ => true) sfs
    (fun e he => (h3 e he).1) (fun e he => hP.healthy.readable _ _ (hin e he))
  have hblob : (blobsListed src.index.packs).Nodup := (C18.refused_iff src.index).1.mp ⟨_, hP.opens.blobMap⟩
  obtain ⟨known, h5⟩ := (C18.refused_iff (freshIndex w src (reachableBlobs sfs))).2.1.mpr
    (hblob.sublist (by
      unfold blobsListed
      exact List.Sublist.flatMap List.filter_sublist _))
  obtain ⟨r, h6⟩ := (C14.accepted_iff w).mpr (by
    intro x hx p hp
    obtain ⟨m, hm⟩ := BMap.mem_keys_iff.mp hp
    obtain ⟨bs, hb, _⟩ := hP.leftover.there x p m hx (BMap.mem_of_get? hm)
    exact hb.imp BMap.mem_keys_of_mem BMap.mem_keys_of_mem)
  obtain ⟨q, h7⟩ : ∃ q, pruneStart w (freshIndex w src (reachableBlobs sfs)) = .ok q := by
    unfold pruneStart
    rw [h6]
    exact ⟨_, rfl⟩
  obtain ⟨start, here⟩ := q
  obtain ⟨r', h8, _⟩ := h4 ⟨BMap.keys known ++ listedIds start, []⟩ ReaderState.new C33.settled_new
  unfold freshIndex at h5 h7
  unfold prunePlan
  simp only [h1, h5, h7, h8]
  split
  · exact ⟨_, rfl⟩
  · exact ⟨_, rfl⟩

end Backpak
