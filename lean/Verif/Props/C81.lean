import Verif.Props.C26
import Verif.Props.C34
import Mathlib.Data.List.Dedup

/-!
# C81 - usage shows unused data exactly when there is something to prune
-/

namespace Backpak.C81

open Spec Pipeline

variable {Id : Type} [LinearOrder Id] {C : Codec Id} {env : CacheEnv Id} {ids : Ids Id} {cores : Nat}
  {src : Source Id} {snaps : List (Snap Id)} {plan : Plan Id} {R : Repo Id}

/-- The snapshots of the repository, as `usage` takes them. -/
def Loads (R : Repo Id) (snaps : List (Snap Id)) : Prop := ∀ i s, (i, s) ∈ R.snapshots ↔ (s, i) ∈ snaps

omit [LinearOrder Id] in
theorem mem_chunks {t : Tree Id} {c : Id} : c ∈ chunksInTree t ↔ ∃ n cs md, (n, ⟨.file cs, md⟩) ∈ t ∧ c ∈ cs := by
  unfold chunksInTree
  rw [List.mem_flatMap]
  constructor
  · rintro ⟨⟨n, ⟨k, md⟩⟩, h1, h2⟩
    cases k with
    | file cs => exact ⟨n, cs, md, h1, h2⟩
    | dir _ => cases h2
    | link _ => cases h2
  · rintro ⟨n, cs, md, h1, h2⟩
    exact ⟨_, h1, h2⟩

omit [LinearOrder Id] in
/-- Of a blob that can be found, being needed by a snapshot is being used by one of those loaded. -/
theorem needed_used (hl : Loads R snaps) {b : Blob Id} (hb : Has C R b) :
    Needed C R b.id ↔ ∃ s ∈ snaps.map Prod.fst, Used C R s.tree b := by
  constructor
  · rintro ⟨j, s, h1, u, t, h2, h3, h4⟩
    refine ⟨s, List.mem_map.mpr ⟨(s, j), (hl j s).mp h1, rfl⟩, hb, u, t, h2, h3, ?_⟩
    rwa [← mem_chunks]
  · rintro ⟨s, h1, _, u, t, h2, h3, h4⟩
    obtain ⟨⟨s, j⟩, h5, rfl⟩ := List.mem_map.mp h1
    refine ⟨j, s, (hl j s).mpr h5, u, t, h2, h3, ?_⟩
    rwa [mem_chunks]

theorem exists_list (C : Codec Id) (R : Repo Id) (p : Blob Id → Prop) :
    ∃ L : List (Blob Id), L.Nodup ∧ ∀ b, b ∈ L ↔ Has C R b ∧ p b := by
  classical
  refine ⟨((R.packs.flatMap Prod.snd).filter (fun b => Has C R b ∧ p b)).dedup, List.nodup_dedup _, fun b => ?_⟩
  rw [List.mem_dedup, List.mem_filter]
  simp only [decide_eq_true_eq, and_iff_right_iff_imp]
  rintro ⟨⟨_, q, bs, _, h1, h2⟩, _⟩
  exact List.mem_flatMap.mpr ⟨(q, bs), h1, h2⟩

omit [LinearOrder Id] in
theorem le_zero {l : List Nat} {n : Nat} (h : n ∈ l) (h0 : l.sum = 0) : n = 0 := by
  induction l with
  | nil => cases h
  | cons a l ih =>
    rw [List.sum_cons] at h0
    rcases List.mem_cons.mp h with rfl | h
    · omega
    · exact ih h (by omega)

theorem readable (hH : Healthy C ids R) (hl : Loads R snaps) : ∀ s ∈ snaps.map Prod.fst, Readable C R s := by
  intro s hs
  obtain ⟨⟨s, j⟩, h1, rfl⟩ := List.mem_map.mp hs
  exact hH.readable j s ((hl j s).mpr h1)

/-- Nothing is shown as unused just if everything is needed. -/
theorem unused_zero (hH : Healthy C ids R) (ho : Opens R src) (hl : Loads R snaps) (hE : C34.EmptyOwn C R) {z : Usage}
    (h : usage C src (snaps.map Prod.fst) = .ok z) : z.unused = 0 ↔ ∀ b, Has C R b → Needed C R b.id := by
  obtain ⟨_, _, h2⟩ := C34.usage_right hH ho hE (readable hH hl) h
  obtain ⟨L, hL, hm⟩ := exists_list C R (fun b => ∀ s ∈ snaps.map Prod.fst, ¬ Used C R s.tree b)
  rw [(h2 L hL hm).1]
  constructor
  · intro h0 b hb
    rw [needed_used hl hb]
    by_contra hn
    have hbL := (hm b).mpr ⟨hb, fun s hs hu => hn ⟨s, hs, hu⟩⟩
    have : b.data.length = 0 := by
      exact le_zero (List.mem_map.mpr ⟨b, hbL, rfl⟩) h0
    obtain ⟨p, bs, g1, g2, g3⟩ := (hH.sound.has_iff b).mp hb
    exact hH.full p bs b g1 g2 g3 (List.length_eq_zero_iff.mp this)
  · intro hn
    have : L = [] := by
      rw [List.eq_nil_iff_forall_not_mem]
      intro b hb
      obtain ⟨h3, h4⟩ := (hm b).mp hb
      obtain ⟨s, g1, g2⟩ := (needed_used hl h3).mp (hn b h3)
      exact h4 s g1 g2
    simp [this]

/-- Whenever `usage` shows anything, it shows unused data just if a prune finds something to do. -/
theorem unused_iff (w : World Id) (hP : PruneOk C env ids w src snaps) (hE : C34.EmptyOwn C w.repo) {z : Usage}
    (h : usage C src (snaps.map Prod.fst) = .ok z) (dry : Bool) :
    z.unused = 0 ↔ prunePlan C env w src snaps dry = .ok none := by
  rw [unused_zero hP.healthy hP.opens hP.loaded hE h, C26.nothing_iff w hP dry]
  constructor
  · intro hn p m e hl he
    obtain ⟨bs, hb, rfl⟩ := hP.healthy.present p m hl
    obtain ⟨b, hb', rfl⟩ := List.mem_map.mp he
    exact hn b ((hP.healthy.sound.has_iff b).mpr ⟨p, bs, hl, hb, hb'⟩)
  · intro hn b hb
    obtain ⟨p, bs, g1, g2, g3⟩ := (hP.healthy.sound.has_iff b).mp hb
    exact hn p _ (Pack.entryOf b) g1 (List.mem_map.mpr ⟨b, g3, rfl⟩)

/-- If `usage` works and a snapshot has an empty directory, the empty tree is stored. -/
theorem empty_stored (hH : Healthy C ids R) (ho : Opens R src) (hl : Loads R snaps) (hE : C34.EmptyOwn C R)
    (hne : ∀ x, ¬ Has C R ⟨x, C.emptyId, .chunk⟩) {z : Usage} (h : usage C src (snaps.map Prod.fst) = .ok z)
    (hn : Needed C R C.emptyId) : Has C R (emptyBlob C) := by
  obtain ⟨zs, hzs⟩ := (C34.usage_iff hH ho hE (readable hH hl)).mp ⟨z, h⟩
  have hc := C34.countable_of_ok hH ho hE (readable hH hl) hzs
  obtain ⟨j, s, h1, u, t, h2, h3, h4⟩ := hn
  rcases h4 with rfl | h4
  · obtain ⟨b, hb, g1, _⟩ := (hc s (List.mem_map.mpr ⟨(s, j), (hl j s).mp h1, rfl⟩)).2 _ t h2 h3
    have g2 := hE b hb g1
    obtain ⟨x, i, k⟩ := b
    cases g1
    cases g2
    cases k with
    | tree => exact hb
    | chunk => exact (hne _ hb).elim
  · obtain ⟨d, hd⟩ := hH.readable j s h1
    obtain ⟨_, d', t', ht', hd'⟩ := reaches_kept hH.sound (fun b hb => .inl hb) h2 hd
    have := hH.sound.treeAt_one h3 ht'
    subst this
    obtain ⟨x, hx⟩ := holds_chunk hd' h4
    exact (hne x hx).elim

theorem reaches_back {R' : Repo Id} (hold : ∀ b, Has C R' b → Has C R b ∨ b = emptyBlob C) {root u : Id}
    (h : Reaches (TreeAt C R') root u) : Reaches (TreeAt C R) root u := by
  induction h with
  | refl => exact .refl
  | step h1 h2 _ ih => exact .step (treeAt_kept hold h1) h2 ih

/-- `usage` works just if every tree is stored. -/
theorem countable_iff (hH : Healthy C ids R) (ho : Opens R src) (hl : Loads R snaps) (hE : C34.EmptyOwn C R) :
    (∃ z, usage C src (snaps.map Prod.fst) = .ok z) ↔ C34.Countable C R (snaps.map Prod.fst) := by
  constructor
  · intro h
    obtain ⟨zs, hzs⟩ := (C34.usage_iff hH ho hE (readable hH hl)).mp h
    exact C34.countable_of_ok hH ho hE (readable hH hl) hzs
  · intro h
    obtain ⟨z, _, h1, _⟩ := C34.countable_usage hH ho h
    exact ⟨z, h1⟩

/-- The data in packs is that of all blobs that can be found, of which what is not unique to snapshots is unused. -/
theorem packed_all (hH : Healthy C ids R) (ho : Opens R src) (hl : Loads R snaps) (hE : C34.EmptyOwn C R) {z : Usage}
    (h : usage C src (snaps.map Prod.fst) = .ok z) : z.packed = z.unique + z.unused := by
  obtain ⟨_, _, h2⟩ := C34.usage_right hH ho hE (readable hH hl) h
  obtain ⟨L, hL, hm⟩ := exists_list C R (fun b => ∀ s ∈ snaps.map Prod.fst, ¬ Used C R s.tree b)
  exact (h2 L hL hm).2

/-- Once a prune has finished, `usage` works, even if it did not before (see C35); it shows no unused data; and as much in
snapshots as before, if it worked before. So what it showed as unused before is what there is less now. -/
theorem after_prune (w w' : World Id) (hP : PruneOk C env ids w src snaps)
    (hN : PruneNoClash ids cores w plan) (hp : prunePlan C env w src snaps false = .ok (some plan))
    (h : Finished (liveCfg ids cores plan.start) w plan.main plan.posts w') (hE : C34.EmptyOwn C w.repo)
    {src' : Source Id} (ho : Opens w'.repo src') {snaps' : List (Snap Id)} (hs : Loads w'.repo snaps') :
    ∃ z', usage C src' (snaps'.map Prod.fst) = .ok z' ∧ z'.unused = 0 ∧
      ∀ z, usage C src (snaps.map Prod.fst) = .ok z → z'.unique = z.unique ∧ z.packed = z'.packed + z.unused := by
  have hL := C26.left hP hN hp h
  have hH := hP.healthy
  have hE' : C34.EmptyOwn C w'.repo := by
    intro b hb hi
    rcases (hL.old b hb).2 with h1 | rfl
    · exact hE b h1 hi
    · rfl
  obtain ⟨z', hz'⟩ := (countable_iff hL.healthy ho hs hE').mpr (by
    intro s hm
    refine ⟨readable hL.healthy hs s hm, fun u t hr ht => ?_⟩
    obtain ⟨⟨s', j⟩, h1, h1'⟩ := List.mem_map.mp hm
    have h1' : s' = s := h1'
    subst h1'
    have hold : ∀ b, Has C w'.repo b → Has C w.repo b ∨ b = emptyBlob C := fun b hb => (hL.old b hb).2
    obtain ⟨b, hb, hbu⟩ := hL.stored j s' u (by rw [← hL.snaps]; exact (hs j s').mpr h1) (reaches_back hold hr)
    refine ⟨b, hb, hbu, ?_⟩
    rcases ht.2.2 with rfl | ht'
    · exact hE' b hb (by rw [hbu]; exact ht.2.1.symm)
    · rw [hL.healthy.sound.has_one hb ht' hbu])
  have hu0 : z'.unused = 0 := (unused_zero hL.healthy ho hs hE' hz').mpr (fun b hb => hL.needed hH (hL.old b hb).1)
  refine ⟨z', hz', hu0, fun z hz => ?_⟩
  suffices hq : z'.unique = z.unique by
    refine ⟨hq, ?_⟩
    have := packed_all hH hP.opens hP.loaded hE hz
    have := packed_all hL.healthy ho hs hE' hz'
    omega
  have hne' : ∀ x, ¬ Has C w'.repo ⟨x, C.emptyId, .chunk⟩ := by
    intro x hx
    rcases (hL.old _ hx).2 with h1 | h1
    · exact hP.noEmpty x h1
    · cases h1
  obtain ⟨_, g1, _⟩ := C34.usage_right hH hP.opens hE (readable hH hP.loaded) hz
  obtain ⟨_, g1', _⟩ := C34.usage_right hL.healthy ho hE' (readable hL.healthy hs) hz'
  obtain ⟨L, hn, hm⟩ := exists_list C w.repo (fun b => Needed C w.repo b.id)
  have e1 : ∀ b, b ∈ L ↔ ∃ s ∈ snaps.map Prod.fst, Used C w.repo s.tree b := by
    intro b
    rw [hm b]
    constructor
    · rintro ⟨hb, h1⟩; exact (needed_used hP.loaded hb).mp h1
    · rintro ⟨s, h1, h2⟩; exact ⟨h2.1, (needed_used hP.loaded h2.1).mpr ⟨s, h1, h2⟩⟩
  have back : ∀ b, Has C w'.repo b → Has C w.repo b := by
    intro b hb
    obtain ⟨h1, h2⟩ := hL.old b hb
    rcases h2 with h2 | rfl
    · exact h2
    · exact empty_stored hH hP.opens hP.loaded hE hP.noEmpty hz h1
  have e2 : ∀ b, b ∈ L ↔ ∃ s ∈ snaps'.map Prod.fst, Used C w'.repo s.tree b := by
    intro b
    rw [hm b]
    constructor
    · rintro ⟨hb, h1⟩
      have hb' : Has C w'.repo b := by
        by_cases e : b.id = C.emptyId
        · have h2 := empty_stored hL.healthy ho hs hE' hne' hz' (by rw [← e]; exact hL.needed hH h1)
          rwa [hH.sound.has_one hb (back _ h2) e]
        · exact (C26.exactly_partial w w' hP hN hp h b e).mpr ⟨hb, h1⟩
      exact (needed_used hs hb').mp (hL.needed hH h1)
    · rintro ⟨s, h1, h2⟩
      exact ⟨back b h2.1, (hL.old b h2.1).1⟩
  rw [g1 L hn e1, g1' L hn e2]

/-! ## Example -/

/-- A snapshot was forgotten: there is unused data, and a prune to do, which finishes. -/
example : PruneOk Demo.codec Demo.env Demo.pruneIds (Demo.clean Demo.repoA) (Check.opened Demo.repoA) (Demo.snapsOf Demo.repoA) ∧
    C34.EmptyOwn Demo.codec Demo.repoA ∧ PruneNoClash Demo.pruneIds 4 (Demo.clean Demo.repoA) Demo.planA ∧
    prunePlan Demo.codec Demo.env (Demo.clean Demo.repoA) (Check.opened Demo.repoA) (Demo.snapsOf Demo.repoA) false =
      .ok (some Demo.planA) ∧
    ∃ w', Finished (liveCfg Demo.pruneIds 4 Demo.planA.start) (Demo.clean Demo.repoA) Demo.planA.main Demo.planA.posts w' := by
  refine ⟨Demo.pruneOkA, C34.emptyOwn_of (by decide +kernel), Demo.noClashA, Demo.planA_eq, ?_⟩
  obtain ⟨t, ht, hj⟩ := C24.finishes _ Demo.pruneOkA Demo.noClashA Demo.planA_eq (Nat.le_refl 4)
    (by unfold BMap.Sorted; decide +kernel) _ .refl
  exact ⟨_, .mk t ht hj⟩

/-- What `usage` shows there. -/
example : (usage Demo.codec (Check.opened Demo.repoA) ((Demo.snapsOf Demo.repoA).map Prod.fst)).toOption.map
    (fun z => (decide (0 < z.unused), decide (z.packed = z.unique + z.unused))) = some (true, true) := by
  decide +kernel

/-- And with the snapshot not forgotten: one chunk that no snapshot uses is stored. -/
example : (usage Demo.codec (Check.opened Demo.repoAB) ((Demo.snapsOf Demo.repoAB).map Prod.fst)).toOption.map
    (fun z => (z.unique, z.packed, z.unused)) = some (208, 210, 2) := by
  decide +kernel

end Backpak.C81
