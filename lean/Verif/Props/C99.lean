import Verif.Spec.Passes
import Verif.Lemmas.FilterDiff
import Verif.Props.C38
import Verif.Props.C43
import Verif.Props.C96
import Verif.Props.C86
import Verif.Props.C92
import Verif.Props.C39
import Verif.Props.C30

/-!
# C99: commands agree with one another
-/

namespace Backpak.C99

open Spec Since Pipeline FilterDiff TreeId

variable {Id : Type} [LinearOrder Id] {C : Codec Id} {ids : Ids Id} {R : Repo Id} {src src' : Source Id} {cores : Nat}
  {target : Snap Id} {filter : Path → Bool} {a : FilterArgs} {plan : Plan Id} {m : Bool} {cut : Bytes → Nat}
  {w w' : World Id} {sn : Snapshot Id}

theorem passes_iff {n : Name} {q : Path} : Passes filter (n :: q) ↔ Wanted filter [n] q := by
  constructor
  · intro h k _
    refine h _ (by simp) ?_
    simpa using List.take_prefix k q
  · intro h r hr hp
    rcases List.prefix_cons_iff.mp hp with h1 | ⟨t, rfl, ht⟩
    · exact absurd h1 hr
    · have := h t.length (ht.length_le)
      rw [← List.prefix_iff_eq_take.mp ht] at this
      simpa using this

/-! ## Filter-snapshot, diff and ls -/

/-- What is in the repository when a snapshot has been filtered. -/
theorem run (h : FilterOk C ids w src target) (hN : FilterNoClash C ids cores w src target filter plan)
    (hp : filterPlan C src target filter a = .ok plan)
    (hi : Finished (liveCfg ids cores plan.start) w plan.main plan.posts w') (hsn : .putSnap sn ∈ plan.posts) :
    Healthy C ids w'.repo ∧ (∀ b, Has C w.repo b → Has C w'.repo b) ∧ (ids.snapId sn, sn) ∈ w'.repo.snapshots ∧
    ∃ F d, Holds C w.repo target.1.tree d ∧ Holds C w'.repo target.1.tree d ∧
      Holds C w'.repo sn.tree (keep filter (fun n => [n]) d) ∧
      (∀ id t, InForest F id t → TreeAt C w'.repo id t) ∧ Tall (InForest F) (F.length + 1) target.1.tree ∧
      sn.tree = (filterTree C filter F (F.length + 1) [] target.1.tree).1 ∧
      ∀ b ∈ (filterTree C filter F (F.length + 1) [] target.1.tree).2,
        WellMade C b ∧ b.kind = .tree ∧ Has C w'.repo b := by
  have hgood := (C31.others_untouched_partial w w' h hN hp (C86.instant_of_finished hi)).1
  refine ⟨hgood, ?_⟩
  cases hi with
  | mk s hs hj =>
    obtain ⟨h1, h2, h3, F, cache, d, root, hF, hd, hroot, _, h4, h5⟩ := filter_run h hN hp hs
    obtain ⟨h5, h6⟩ := h5 hj
    have hS := h.healthy.sound
    have hFo : ForestOf C w.repo target.1.tree F := C23.forest_exact hS h.opens _ _ F cache newTreeCache_ok hF
    have hsn' : sn.tree = root ∧ plan.posts = [.putSnap sn] := by
      rw [h4] at hsn ⊢
      split at hsn
      · cases hsn
      · rename_i hne
        split at hsn
        · cases hsn
        · rename_i hdry
          simp only [List.mem_singleton, Post.putSnap.injEq] at hsn
          subst hsn
          refine ⟨?_, by rw [if_neg hne, if_neg hdry]⟩
          unfold filteredSnap
          split <;> rfl
    have hup : ∀ b, Has C s.world.repo b →
        Has C (plan.posts.foldl (applyPost (liveCfg ids cores plan.start).ids) s.world.repo) b := by
      intro b hb
      rw [hsn'.2]
      exact puts_has [sn] hb
    refine ⟨fun b hb => hup b (h3 b hb), ?_, F, d, hd, has_mono_holds (fun b hb => hup b (h3 b hb)) hd, ?_, ?_,
      (hFo.tall (holds_grounded hd)).mono (Nat.le_succ _), hsn'.1.trans hroot, ?_⟩
    · rw [hsn'.2]
      exact (BMap.mem_insert_iff h1.snapshots_sorted).mpr (.inl ⟨rfl, rfl⟩)
    · rw [hsn'.1]
      exact has_mono_holds hup h5
    · intro id t hi
      have := ((hFo id t).mp hi).2
      exact ⟨this.1, this.2.1, this.2.2.imp (fun e => e) (fun hb => hup _ (h3 _ hb))⟩
    · intro b hb
      obtain ⟨g1, g2, g3⟩ := h6 b hb
      exact ⟨g1, g2, hup b g3⟩

/-- What is at each path of the new snapshot: what was, or nothing. -/
theorem nodes {F F1 F2 : Forest Id} {d d' : Dir Bytes} (hS : Sound C R)
    (hF : ∀ id t, InForest F id t → TreeAt C R id t) (ht : Tall (InForest F) (F.length + 1) target.1.tree)
    (hroot : sn.tree = (filterTree C filter F (F.length + 1) [] target.1.tree).1)
    (hb : ∀ b ∈ (filterTree C filter F (F.length + 1) [] target.1.tree).2,
        WellMade C b ∧ b.kind = .tree ∧ Has C R b)
    (l1 : Loaded C R F1 target.1.tree d) (l2 : Loaded C R F2 sn.tree d') (p : Path) :
    (¬ Passes filter p → nodeAt F2 sn.tree p = none) ∧
    (Passes filter p → AlikeAt (nodeAt F1 target.1.tree p) (nodeAt F2 sn.tree p)) := by
  cases p with
  | nil => exact ⟨fun _ => nodeAt_nil, fun _ => by rw [nodeAt_nil, nodeAt_nil]; trivial⟩
  | cons n q =>
    have h2 := l2.grounded
    rw [hroot] at h2 ⊢
    rw [passes_iff]
    exact nodeAt_filter hS hF (fun id t hi => ((l1.exact id t).mp hi).2) (fun id t hi => ((l2.exact id t).mp hi).2)
      q n _ [] _ ht l1.grounded h2 hb

theorem alike_reports {o o' : Option (Node Id)} (h : AlikeAt o o') {sg : Sign} {x : Node Id} :
    ¬ Reports m o o' sg x := by
  rcases o with _ | x1 <;> rcases o' with _ | y1
  · cases sg <;> simp [Reports]
  · exact h.elim
  · exact h.elim
  · obtain ⟨h1, h2⟩ := h
    obtain ⟨c, md⟩ := x1
    obtain ⟨c', md'⟩ := y1
    simp only at h1 h2
    subst h1
    rcases h2 with rfl | ⟨i, j, rfl, rfl⟩
    · exact reports_same _ _ _
    · cases sg <;> simp only [Reports, Replaced, Contents.kind, Option.some.injEq] <;> rintro ⟨rfl, h⟩ <;>
        first | (simp_all; done) | (simp_all; obtain ⟨rfl, h, _⟩ := h; exact h rfl)

/-- Full claim: comparing a snapshot with what filter-snapshot made of it prints exactly what was left
out. It does if the hashes of what is involved do not collide and every entry's metadata says what it is. -/
theorem filter_diff_partial (h : FilterOk C ids w src target)
    (hN : FilterNoClash C ids cores w src target filter plan)
    (hp : filterPlan C src target filter a = .ok plan)
    (hi : Finished (liveCfg ids cores plan.start) w plan.main plan.posts w') (hsn : .putSnap sn ∈ plan.posts)
    (hk : ∀ d, Holds C w.repo target.1.tree d → d.KindsOk) (ho : Opens w'.repo src') :
    ∃ d L L', Holds C w.repo target.1.tree d ∧
      diffSnapshots C src' m target.1 sn = .ok L ∧ diffSnapshots C src' m sn target.1 = .ok L' ∧
      L.Nodup ∧ L'.Nodup ∧ (∀ e ∈ L, e.1 = .minus) ∧ (∀ e ∈ L', e.1 = .plus) ∧
      (∀ p, (∃ x, (.minus, p, x) ∈ L) ↔ (entry d p).isSome = true ∧ ¬ Passes filter p) ∧
      (∀ p x, (.plus, p, x) ∈ L' ↔ (.minus, p, x) ∈ L) := by
  obtain ⟨hH, hup, hm, F, d, hd, hd1, hd2, hF, ht, hroot, hb⟩ := run h hN hp hi hsn
  have hS := hH.sound
  have hk2 := C21.kinds_keep filter (hk d hd) (fun n => [n])
  obtain ⟨F1, cache, g1, l1, hc⟩ := load_from hS ho hd1 newTreeCache_ok
  obtain ⟨F2, cache', g2, l2, _⟩ := load_from hS ho hd2 hc
  obtain ⟨G2, cache2, k2, m2, hc2⟩ := load_from hS ho hd2 newTreeCache_ok
  obtain ⟨G1, cache1, k1, m1, _⟩ := load_from hS ho hd1 hc2
  obtain ⟨L, a1, a2, a3⟩ := C38.exactly (m := m) (C38.comparable hH l1 l2 hd1 hd2 (hk d hd) hk2)
  obtain ⟨L', b1, b2, b3⟩ := C38.exactly (m := m) (C38.comparable hH m2 m1 hd2 hd1 hk2 (hk d hd))
  have e1 : ∀ p, nodeAt G1 target.1.tree p = nodeAt F1 target.1.tree p := fun p =>
    agree_nodeAt (loaded_agree hS m1 l1) p m1.grounded l1.grounded
  have e2 : ∀ p, nodeAt G2 sn.tree p = nodeAt F2 sn.tree p := fun p =>
    agree_nodeAt (loaded_agree hS m2 l2) p m2.grounded l2.grounded
  have hback : ∀ sg p x, (sg, p, x) ∈ L' ↔ Reports m (nodeAt F2 sn.tree p) (nodeAt F1 target.1.tree p) sg x := by
    intro sg p x
    rw [b3, e1, e2]
  have hnodes := nodes (filter := filter) hS hF ht hroot hb l1 l2
  have halike : ∀ o o' : Option (Node Id), AlikeAt o o' → AlikeAt o' o := by
    intro o o' h
    rcases o with _ | x <;> rcases o' with _ | y
    · trivial
    · exact h.elim
    · exact h.elim
    · obtain ⟨h1, h2⟩ := h
      exact ⟨h1.symm, h2.elim (fun e => .inl e.symm) (fun ⟨i, j, h3, h4⟩ => .inr ⟨j, i, h4, h3⟩)⟩
  refine ⟨d, L, L', hd, by simp only [diffSnapshots, g1, g2, a1], by simp only [diffSnapshots, k1, k2, b1],
    a2, b2, ?_, ?_, ?_, ?_⟩
  · rintro ⟨sg, p, x⟩ he
    have hr := (a3 _ _ _).mp he
    by_cases hw : Passes filter p
    · exact absurd hr (alike_reports ((hnodes p).2 hw))
    · rw [(hnodes p).1 hw] at hr
      cases sg <;> simp [Reports] at hr ⊢
  · rintro ⟨sg, p, x⟩ he
    have hr := (hback _ _ _).mp he
    by_cases hw : Passes filter p
    · exact absurd hr (alike_reports (halike _ _ ((hnodes p).2 hw)))
    · rw [(hnodes p).1 hw] at hr
      cases sg <;> simp [Reports] at hr ⊢
  · intro p
    simp only [a3]
    by_cases hw : Passes filter p
    · exact iff_of_false (fun ⟨x, hr⟩ => alike_reports ((hnodes p).2 hw) hr) (fun h => h.2 hw)
    · rw [(hnodes p).1 hw]
      rcases l1.entry_rel p with ⟨f1, f2⟩ | ⟨x, e, f1, f2, _⟩
      · simp [Reports, f1, f2]
      · simp [Reports, f1, f2, hw]
  · intro p x
    rw [hback, a3]
    exact C38.reports_swap _ _ _

/-- Listing what filter-snapshot made gives the paths of the snapshot it was made of that are not left
out. -/
theorem filter_ls_partial (h : FilterOk C ids w src target)
    (hN : FilterNoClash C ids cores w src target filter plan)
    (hp : filterPlan C src target filter a = .ok plan)
    (hi : Finished (liveCfg ids cores plan.start) w plan.main plan.posts w') (hsn : .putSnap sn ∈ plan.posts)
    (ho : Opens w'.repo src') :
    ∃ L L', ls C src' target.1 = .ok L ∧ ls C src' sn = .ok L' ∧
      ∀ p, (∃ x, (p, x) ∈ L') ↔ (∃ x, (p, x) ∈ L) ∧ Passes filter p := by
  obtain ⟨hH, hup, hm, F, d, hd, hd1, hd2, hF, ht, hroot, hb⟩ := run h hN hp hi hsn
  have hS := hH.sound
  have hmt := (C31.others_untouched_partial w w' h hN hp (C86.instant_of_finished hi)).2.1 _ _ h.loaded
  obtain ⟨L, d1, a1, a2, a3, a4, _⟩ := C43.lists hH ho hmt
  obtain ⟨L', d2, b1, b2, b3, b4, _⟩ := C43.lists hH ho hm
  obtain rfl := holds_one hS a2 hd1
  obtain rfl := holds_one hS b2 hd2
  obtain ⟨F1, cache, g1, l1, hc⟩ := load_from hS ho hd1 newTreeCache_ok
  obtain ⟨F2, cache', g2, l2, _⟩ := load_from hS ho hd2 hc
  have hnodes := nodes (filter := filter) hS hF ht hroot hb l1 l2
  refine ⟨L, L', a1, b1, fun p => ?_⟩
  have hL : (∃ x, (p, x) ∈ L) ↔ nodeAt F1 target.1.tree p ≠ none := by
    rcases l1.entry_rel p with ⟨f1, f2⟩ | ⟨x, e, f1, f2, _⟩
    · refine iff_of_false (fun ⟨x, hx⟩ => ?_) (by simp [f1])
      obtain ⟨e, he, _⟩ := a3 p x hx
      rw [f2] at he; cases he
    · refine iff_of_true ?_ (by simp [f1])
      obtain ⟨x, hx, _⟩ := a4 p e f2
      exact ⟨x, hx⟩
  have hL' : (∃ x, (p, x) ∈ L') ↔ nodeAt F2 sn.tree p ≠ none := by
    rcases l2.entry_rel p with ⟨f1, f2⟩ | ⟨x, e, f1, f2, _⟩
    · refine iff_of_false (fun ⟨x, hx⟩ => ?_) (by simp [f1])
      obtain ⟨e, he, _⟩ := b3 p x hx
      rw [f2] at he; cases he
    · refine iff_of_true ?_ (by simp [f1])
      obtain ⟨x, hx, _⟩ := b4 p e f2
      exact ⟨x, hx⟩
  rw [hL, hL']
  by_cases hw : Passes filter p
  · have := (hnodes p).2 hw
    revert this
    rcases nodeAt F1 target.1.tree p with _ | x <;> rcases nodeAt F2 sn.tree p with _ | y <;> simp [AlikeAt, hw]
  · rw [(hnodes p).1 hw]
    simp [hw]

/-! ## Filtering twice, and copying -/

/-- Filtering what was filtered leaves the files that are skipped neither time. -/
theorem filter_twice_partial {w2 : World Id} {src2 : Source Id} {g : Path → Bool} {a2 : FilterArgs} {plan2 : Plan Id}
    {sn2 : Snapshot Id} (h : FilterOk C ids w src target)
    (hN : FilterNoClash C ids cores w src target filter plan)
    (hp : filterPlan C src target filter a = .ok plan)
    (hi : Finished (liveCfg ids cores plan.start) w plan.main plan.posts w') (hsn : .putSnap sn ∈ plan.posts)
    (ho : Opens w'.repo src2) (hN2 : FilterNoClash C ids cores w' src2 (sn, ids.snapId sn) g plan2)
    (hnames : ∀ p bs, (p, bs) ∈ w'.cwd.packs → p = ids.packId (Pack.manifestOf bs))
    (hp2 : filterPlan C src2 (sn, ids.snapId sn) g a2 = .ok plan2)
    (hi2 : Finished (liveCfg ids cores plan2.start) w' plan2.main plan2.posts w2)
    (hsn2 : .putSnap sn2 ∈ plan2.posts) :
    (∃ d, Holds C w.repo target.1.tree d ∧
      Holds C w2.repo sn2.tree (keep (fun p => filter p && g p) (fun n => [n]) d)) ∧
    ∀ d, HoldsCut C w.repo cut target.1.tree d →
      sn2.tree = idOf C cut (keep (fun p => filter p && g p) (fun n => [n]) d) := by
  obtain ⟨hH, hup, hm, F, d, hd, hd1, hd2, hF, ht, hroot, hb⟩ := run h hN hp hi hsn
  have h2 : FilterOk C ids w' src2 (sn, ids.snapId sn) := ⟨hH, ho, hm, hnames⟩
  obtain ⟨_, _, _, _, d', k1, _, k2, _⟩ := run h2 hN2 hp2 hi2 hsn2
  obtain rfl := holds_one hH.sound k1 hd2
  refine ⟨⟨d, hd, ?_⟩, fun d0 hd0 => ?_⟩
  · rw [keep_keep d (fun n => [n]) (fun n => [n]) (f := fun p => filter p && g p) (fun n q => rfl)]
    exact k2
  · obtain rfl := holds_one h.healthy.sound (C95.holdsCut_holds hd0) hd
    have hcut := filterTree_cut hH.sound hF
      (C96.stays_added hup hd0) ht hb
    rw [← hroot] at hcut
    rw [C96.filter_tree h2 hcut hp2 hsn2,
      keep_keep d0 (fun n => [n]) (fun n => [n]) (f := fun p => filter p && g p) (fun n q => rfl)]

/-- Filtering a copy leaves the files that are skipped neither in copying nor in filtering. -/
theorem copy_filter_partial {env : CacheEnv Id} {from_ dst : Source Id} {snaps : List (Snap Id)}
    (hC : CopyOk C env ids R w from_ dst snaps) (hN : CopyNoClash C ids cores R w from_ snaps filter plan)
    (hp : copyPlan C env w from_ dst snaps filter false = .ok plan)
    (hi : Finished (liveCfg ids cores plan.start) w plan.main plan.posts w') :
    ∀ s ∈ snaps, ∃ d c, Holds C R s.1.tree d ∧ c = { s.1 with tree := c.tree } ∧
      (ids.snapId c, c) ∈ w'.repo.snapshots ∧
      ∀ (g : Path → Bool) (a2 : FilterArgs) (src2 : Source Id) (plan2 : Plan Id) (w2 : World Id) (sn2 : Snapshot Id),
        FilterOk C ids w' src2 (c, ids.snapId c) → FilterNoClash C ids cores w' src2 (c, ids.snapId c) g plan2 →
        filterPlan C src2 (c, ids.snapId c) g a2 = .ok plan2 →
        Finished (liveCfg ids cores plan2.start) w' plan2.main plan2.posts w2 → .putSnap sn2 ∈ plan2.posts →
        Holds C w2.repo sn2.tree (keep (fun p => filter p && g p) (fun n => [n]) d) := by
  intro s hs
  obtain ⟨d, root, h1, h2, h3, _⟩ := C30.copied_partial R w w' hC hN hp hi s hs
  refine ⟨d, { s.1 with tree := root }, h1, rfl, h2, ?_⟩
  intro g a2 src2 plan2 w2 sn2 k1 k2 k3 k4 k5
  obtain ⟨_, _, _, _, d', g1, _, g2, _⟩ := run k1 k2 k3 k4 k5
  obtain rfl := holds_one k1.healthy.sound g1 h3
  rw [keep_keep d (fun n => [n]) (fun n => [n]) (f := fun p => filter p && g p) (fun n q => rfl)]
  exact g2

/-- Copying what was filtered leaves the same files. -/
theorem filter_copy_partial {env : CacheEnv Id} {from_ dst : Source Id} {snaps : List (Snap Id)} {g : Path → Bool}
    {v v' : World Id} {plan2 : Plan Id} (h : FilterOk C ids w src target)
    (hN : FilterNoClash C ids cores w src target g plan)
    (hp : filterPlan C src target g a = .ok plan)
    (hi : Finished (liveCfg ids cores plan.start) w plan.main plan.posts w') (hsn : .putSnap sn ∈ plan.posts)
    (hC : CopyOk C env ids w'.repo v from_ dst snaps)
    (hN2 : CopyNoClash C ids cores w'.repo v from_ snaps filter plan2)
    (hp2 : copyPlan C env v from_ dst snaps filter false = .ok plan2)
    (hi2 : Finished (liveCfg ids cores plan2.start) v plan2.main plan2.posts v') (hs : (sn, ids.snapId sn) ∈ snaps) :
    ∃ d c, Holds C w.repo target.1.tree d ∧ c = { sn with tree := c.tree } ∧
      (ids.snapId c, c) ∈ v'.repo.snapshots ∧
      Holds C v'.repo c.tree (keep (fun p => filter p && g p) (fun n => [n]) d) := by
  obtain ⟨hH, _, _, _, d, g1, _, g2, _⟩ := run h hN hp hi hsn
  obtain ⟨d', root, k1, k2, k3, _⟩ := C30.copied_partial w'.repo v v' hC hN2 hp2 hi2 _ hs
  obtain rfl := holds_one hH.sound k1 g2
  refine ⟨d, { sn with tree := root }, g1, rfl, k2, ?_⟩
  rw [keep_keep d (fun n => [n]) (fun n => [n]) (f := fun p => filter p && g p) (f1 := g) (f2 := filter)
    (fun n q => Bool.and_comm _ _)]
  exact k3

/-! ## Restore and diff -/

theorem itemOf_inj {l l' : Option (Leaf Bytes)} (h : itemOf l = itemOf l') : l = l' := by
  rcases l with _ | _ | _ | _ <;> rcases l' with _ | _ | _ | _ <;> simp_all [itemOf]

theorem entry_there {s : Snapshot Id} {look : Look} (hd : (s.paths.map lastName).Nodup) {p : Path} (hp : p ∈ s.paths)
    (q : Path) : entry (there s look) (lastName p :: q) = view (look p) q := by
  rw [entry_cons, ← view_norm (look p), there,
    child_listing (by rw [List.map_map]; exact hd) (List.mem_map.mpr ⟨p, hp, rfl⟩)]

theorem held_plain {i : Id} {d : Dir Bytes} (h : Holds C R i d) : Plain d := by
  obtain ⟨t, ht, h⟩ := h
  clear ht
  induction h with
  | nil => trivial
  | file _ _ ih => exact ⟨by simp, ih⟩
  | link _ ih => exact ⟨by simp, ih⟩
  | dir _ _ _ ih1 ih2 => exact ⟨ih1, ih2⟩

/-- Full claim: once a snapshot has been restored, comparing it with its paths prints nothing. It is so
when it was restored in place with `--delete` and metadata is not compared. -/
theorem restore_diff_partial {look : Look} {dangling : Path → Bool} {args : RestoreArgs} {s : Snapshot Id}
    {d2 : Dir Bytes} {cenv : CacheEnv Id} {env : FsEnv} {d : Disk Id} (he : C33.EnvOk cenv) (hS : Sound C R)
    (ho : Opens R src) (hr : d.reader = ReaderState.new) (h : RestoreOk C R cut look dangling args s d2 d.fs)
    (hw : args.dryRun = false) (hd : args.delete = true) (hout : args.output = none) :
    ∃ ops lines d', restore C src cut look dangling args s = .ok (ops, lines) ∧
      calls C.hash src cenv env ops d = (d', none) ∧
      ∀ look', (∀ p ∈ s.paths, Seen look' d'.fs p) → DiffOk C R cut look' s d2 →
        diffPaths C src cut look' false s = .ok [] := by
  obtain ⟨ops, lines, d', h1, h2, _, h4⟩ := C39.reproduces (env := env) he hS ho hr h hw hd
  refine ⟨ops, lines, d', h1, h2, fun look' hseen hok => ?_⟩
  obtain ⟨L, k1, _, k3⟩ := C95.exactly (m := false) hS ho hok
  have hpl : Plain d2 := held_plain h.holds
  have hsame : ∀ p, SameEnt false (entry d2 p) (entry (there s look') p) := by
    intro p
    cases p with
    | nil => trivial
    | cons n q =>
      by_cases hn : ∃ p ∈ s.paths, lastName p = n
      · obtain ⟨p, hp, rfl⟩ := hn
        rw [entry_there hok.distinct hp]
        have h5 := h4 p hp q
        have h6 := hseen p hp q
        have hdest : dest args s p = p := by unfold dest; rw [hout]
        rw [hdest] at h5
        revert h5 h6
        rcases d'.fs (p ++ q) with _ | o <;> rcases entry d2 (lastName p :: q) with _ | e <;>
          rcases view (look' p) q with _ | e' <;> simp only [Shows, SameEnt, Option.map_some, Option.map_none] <;> intro h5 h6
        all_goals first | trivial | exact h6.elim | cases h5 | skip
        exact ⟨itemOf_inj ((Option.some.inj h5).symm.trans h6.1), fun e => by cases e⟩
      · have g1 : entry d2 (n :: q) = none := by
          rw [entry_cons, child_none.mpr (fun hm => hn (h.tops n hm))]
          rfl
        have g2 : entry (there s look') (n :: q) = none := by
          rw [entry_cons, child_none.mpr (fun hm => hn ?_)]
          · rfl
          · have := (names_listing _).subset hm
            rw [List.map_map] at this
            obtain ⟨p, hp, e⟩ := List.mem_map.mp this
            exact ⟨p, hp, e⟩
        rw [g1, g2]
        trivial
  rw [k1]
  have : L = [] := List.eq_nil_iff_forall_not_mem.mpr (by
    rintro ⟨sg, p, x⟩ hx
    have hsay := (k3 sg p).mp ⟨x, hx⟩
    have hpp : ∀ md, entry (there s look') p ≠ some (md, some .other) := by
      intro md hm
      have := hsame p
      rw [hm] at this
      rcases he : entry d2 p with _ | ⟨md', l⟩
      · rw [he] at this; exact this
      · rw [he] at this
        obtain ⟨e1, _⟩ := this
        dsimp only at e1
        subst e1
        exact entry_plain p hpl md' he
    have hse : seenAt (entry d2 p) (entry (there s look') p) = entry (there s look') p := by
      have := hsame p
      revert this hpp
      rcases entry d2 p with _ | ⟨md, l⟩ <;> rcases entry (there s look') p with _ | ⟨md', l'⟩
      · intro _ _; rfl
      · intro _ h; exact h.elim
      · intro _ h; exact h.elim
      · rintro hpp ⟨rfl, _⟩
        dsimp only at hpp ⊢
        rcases l with _ | x | t | _
        · rfl
        · simp [seenAt]
        · rfl
        · exact absurd rfl (hpp md')
    rw [hse] at hsay
    exact (says_none hpp).mpr (hsame p) sg hsay)
  rw [this]

/-! ## Cases -/

open C31 in
/-- What the snapshot to be filtered holds. -/
@[irreducible] def dirJ : Dir Bytes := (Check.dirAt Demo.codec (repoF Demo.junk) 3 (targetF Demo.junk).1.tree).getD .nil

theorem holdsJ : Holds Demo.codec (C31.repoF Demo.junk) (C31.targetF Demo.junk).1.tree dirJ :=
  Check.dirAt_sound 3 (by decide +kernel)

/-- Every entry's metadata says what it is. -/
def kindsOk : Dir Bytes → Bool
  | .nil => true
  | .leaf _ md (.file _) r => decide (md.kind = .file) && kindsOk r
  | .leaf _ md (.link _) r => decide (md.kind = .link) && kindsOk r
  | .leaf _ _ .other _ => false
  | .dir _ md s r => decide (md.kind = .dir) && kindsOk s && kindsOk r

theorem kindsOk_sound {d : Dir Bytes} (h : kindsOk d = true) : d.KindsOk := by
  induction d with
  | nil => trivial
  | leaf n md l r ih =>
    cases l <;> simp only [kindsOk, Bool.and_eq_true, decide_eq_true_eq] at h
    · exact ⟨h.1, ih h.2⟩
    · exact ⟨h.1, ih h.2⟩
    · cases h
  | dir n md s r ih1 ih2 =>
    simp only [kindsOk, Bool.and_eq_true, decide_eq_true_eq] at h
    exact ⟨h.1.1, ih1 h.1.2, ih2 h.2⟩

theorem kindsJ (d : Dir Bytes) (hd : Holds Demo.codec (C31.repoF Demo.junk) (C31.targetF Demo.junk).1.tree d) :
    d.KindsOk := by
  rw [holds_one C31.healthyJ.sound hd holdsJ]
  exact kindsOk_sound (d := dirJ) (by decide +kernel)

theorem postJ : ∃ sn, .putSnap sn ∈ (C31.planF Demo.junk).posts := by
  have : (C31.planF Demo.junk).posts.any (fun o => match o with | .putSnap _ => true | _ => false) = true := by
    decide +kernel
  obtain ⟨o, ho, h⟩ := List.any_eq_true.mp this
  cases o with
  | putSnap sn => exact ⟨sn, ho⟩
  | _ => cases h

/-- Of `a/x`, `a/y`, `b` and `c`, `a/x` is left out. Comparing prints that. -/
example : ∃ w' sn src' L, Finished (liveCfg C31.ids1 4 (C31.planF Demo.junk).start) (Demo.clean (C31.repoF Demo.junk))
      (C31.planF Demo.junk).main (C31.planF Demo.junk).posts w' ∧
    .putSnap sn ∈ (C31.planF Demo.junk).posts ∧ Opens w'.repo src' ∧
    diffSnapshots Demo.codec src' true (C31.targetF Demo.junk).1 sn = .ok L ∧
    (∃ x, (.minus, [[97], [120]], x) ∈ L) ∧ ∀ e ∈ L, e.1 = .minus := by
  have hok := C31.filterOk_of C31.healthyJ C31.targetJ
  obtain ⟨sn, hsn⟩ := postJ
  obtain ⟨t, ht, hj⟩ := C31.finishes _ hok C31.noClashJ C31.planJ_eq (Nat.le_refl 4) BMap.sorted_nil _ .refl
  have hfin := Finished.mk (post := (C31.planF Demo.junk).posts) t ht hj
  obtain ⟨hH, _⟩ := run hok C31.noClashJ C31.planJ_eq hfin hsn
  obtain ⟨src', ho⟩ := opens_exists hH.sound
  obtain ⟨d, L, L', h1, h2, _, _, _, h3, _, h4, _⟩ := filter_diff_partial (m := true) hok C31.noClashJ C31.planJ_eq hfin hsn
    kindsJ ho
  rw [holds_one C31.healthyJ.sound h1 holdsJ] at h4
  refine ⟨_, sn, src', L, hfin, hsn, ho, h2, (h4 _).mpr ⟨by decide +kernel, fun hp => ?_⟩, h3⟩
  have := hp [[97], [120]] (by simp) (List.prefix_refl _)
  revert this
  decide

theorem diffOk7 : DiffOk Demo.codec Demo.repoH Demo.cut Demo.look7 Demo.snapH Demo.dirH where
  holds := C95.holdsCutH
  kinds1 := ⟨rfl, ⟨rfl, trivial⟩, trivial⟩
  fits1 := C95.fitsDirH
  named := by decide
  distinct := by decide
  few := by decide
  present := by
    intro p hp
    rw [List.mem_singleton.mp hp]
    simp [Demo.look7]
  kinds2 := ⟨rfl, ⟨rfl, trivial⟩, trivial⟩
  sorted := Sorted.subs Demo.sorted7
  fits2 := by
    refine ⟨by decide, ?_, by decide, ⟨by decide, Demo.okFileMd _ _ (by decide) (by decide), by simp [LeafFits], trivial⟩, trivial⟩
    simp only [Demo.dirMd7, Serde.OkMeta, Serde.InI64]
    norm_num
    intro n h; cases h
  contract := Demo.cut_contract
  chunks := by
    have hc : ∀ x ∈ Check.filesOf Demo.dirH ++ Check.filesOf (there Demo.snapH Demo.look7),
        ∀ y ∈ Check.filesOf Demo.dirH ++ Check.filesOf (there Demo.snapH Demo.look7),
        ∀ b ∈ Chunk.chunkFile Demo.codec.hash Demo.cut x, ∀ c ∈ Chunk.chunkFile Demo.codec.hash Demo.cut y,
          b.id = c.id → b.data = c.data := by decide +kernel
    intro x y hx hy
    exact hc x (List.mem_append.mpr (hx.imp Check.mem_filesOf Check.mem_filesOf)) y
      (List.mem_append.mpr (hy.imp Check.mem_filesOf Check.mem_filesOf))
  trees := Check.trees_differ ⟨by decide, ⟨by decide, trivial⟩, trivial⟩ (by decide +kernel)

theorem seen7 : ∀ p ∈ Demo.snapH.paths, Seen Demo.look7 Demo.disk7.fs p := by
  intro p hp
  rw [List.mem_singleton.mp hp]
  refine Demo.seen7 ?_
  obtain ⟨lines, hrun⟩ := Demo.runH
  obtain ⟨ops0, lines0, d0, e1, e2, _, e4⟩ := C39.reproduces (env := Demo.fsEnv7) Demo.env_ok Demo.healthyH.sound
    (Check.opened_opens Demo.healthyH) (d := Demo.disk0) rfl (Demo.restoreOkH true) rfl rfl
  have := e1.symm.trans hrun
  cases this
  have := e2.symm.trans Demo.end7
  cases this
  exact e4 [[], [104]] (List.mem_singleton.mpr rfl)

/-- A directory and a file are removed and a file is written, and then comparing prints nothing. -/
example : RestoreOk Demo.codec Demo.repoH Demo.cut Demo.lookH (fun _ => false) (Demo.argsH true) Demo.snapH Demo.dirH
      Demo.disk0.fs ∧
    (∃ lines, restore Demo.codec (Check.opened Demo.repoH) Demo.cut Demo.lookH (fun _ => false) (Demo.argsH true)
      Demo.snapH = .ok (Demo.opsH, lines)) ∧
    calls Demo.codec.hash (Check.opened Demo.repoH) Demo.env Demo.fsEnv7 Demo.opsH Demo.disk0 = (Demo.disk7, none) ∧
    (∀ p ∈ Demo.snapH.paths, Seen Demo.look7 Demo.disk7.fs p) ∧
    DiffOk Demo.codec Demo.repoH Demo.cut Demo.look7 Demo.snapH Demo.dirH ∧
    diffPaths Demo.codec (Check.opened Demo.repoH) Demo.cut Demo.lookH false Demo.snapH ≠ .ok [] ∧
    diffPaths Demo.codec (Check.opened Demo.repoH) Demo.cut Demo.look7 false Demo.snapH = .ok [] := by
  refine ⟨Demo.restoreOkH true, Demo.runH, Demo.end7, seen7, diffOk7, ?_, ?_⟩
  · intro h
    have : (diffPaths Demo.codec (Check.opened Demo.repoH) Demo.cut Demo.lookH false Demo.snapH).toOption.map List.length ≠
      some 0 := by decide +kernel
    rw [h] at this
    exact this rfl
  · obtain ⟨lines, hrun⟩ := Demo.runH
    obtain ⟨ops, lines', d', h1, h2, h3⟩ := restore_diff_partial (env := Demo.fsEnv7) Demo.env_ok Demo.healthyH.sound
      (Check.opened_opens Demo.healthyH) (d := Demo.disk0) rfl (Demo.restoreOkH true) rfl rfl rfl
    have := h1.symm.trans hrun
    cases this
    have := h2.symm.trans Demo.end7
    cases this
    exact h3 _ seen7 diffOk7

/-- The full claim does not hold: with metadata, a directory is printed whose time the restore did not
set, though it was told to restore times. -/
theorem restore_diff_metadata : (Demo.argsH true).times = true ∧ (Demo.argsH true).permissions = true ∧
    (∃ lines, restore Demo.codec (Check.opened Demo.repoH) Demo.cut Demo.lookH (fun _ => false) (Demo.argsH true)
      Demo.snapH = .ok (Demo.opsH, lines)) ∧
    calls Demo.codec.hash (Check.opened Demo.repoH) Demo.env Demo.fsEnv7 Demo.opsH Demo.disk0 = (Demo.disk7, none) ∧
    (∀ p ∈ Demo.snapH.paths, Seen Demo.look7 Demo.disk7.fs p) ∧
    DiffOk Demo.codec Demo.repoH Demo.cut Demo.look7 Demo.snapH Demo.dirH ∧
    ∃ L x c, diffPaths Demo.codec (Check.opened Demo.repoH) Demo.cut Demo.look7 true Demo.snapH = .ok L ∧
      (.md c, [[104]], x) ∈ L := by
  refine ⟨rfl, rfl, Demo.runH, Demo.end7, seen7, diffOk7, ?_⟩
  obtain ⟨L, h1, _, h3⟩ := C95.exactly (m := true) Demo.healthyH.sound (Check.opened_opens Demo.healthyH) diffOk7
  obtain ⟨x, hx⟩ := (h3 (.md (metaDiffChar Demo.dirMd Demo.dirMd7)) [[104]]).mpr
    ⟨rfl, Demo.dirMd, Demo.dirMd7, none, rfl, rfl, by decide, rfl⟩
  exact ⟨L, x, _, h1, hx⟩


/-! Commands after one another, in a repository that has the trees they make already. -/

/-- A run that sends nothing and found nothing to resume only does what comes after. -/
theorem quiet {Id : Type} [LinearOrder Id] (ids : Ids Id) (w : World Id) (posts : List (Post Id)) :
    Finished (liveCfg ids 4 Index.empty) w [] posts
      ⟨posts.foldl (applyPost ids) w.repo, { w.cwd with wip := none }⟩ := by
  have hc : (liveCfg ids 4 (Index.empty : Index Id)).cores = 4 := rfl
  have hinit : init (liveCfg ids 4 (Index.empty : Index Id)) w [] =
      ⟨w, [], false, false, 0, fun _ => .recv [], .recv Index.empty, .idle⟩ := by
    unfold init
    rw [if_neg (by simp [liveCfg, Index.isEmpty, Index.empty])]
    rfl
  have h : ∃ s, Reachable (liveCfg ids 4 Index.empty) w [] s ∧
      s.world = ⟨w.repo, { w.cwd with wip := none }⟩ ∧ s.joined = true := by
    unfold Reachable
    rw [hinit]
    refine run_step (.spawn _ (by simp) (by simp [State.running, hc])) ?_
    refine run_step (.spawn _ (by simp) (by simp [State.running, hc, PackerState.running])) ?_
    refine run_step (.spawn _ (by simp) (by simp [State.running, hc, PackerState.running])) ?_
    refine run_step (.spawn _ (by simp) (by simp [State.running, hc, PackerState.running, IndexerState.running])) ?_
    refine run_step (.close _ rfl rfl) ?_
    refine run_step (.packerExit _ .chunk [] (by simp [packerNo]) rfl rfl rfl) ?_
    refine run_step (.packerExit _ .tree [] (by simp [packerNo]) rfl rfl rfl) ?_
    refine run_step (.ixEmpty _ Index.empty rfl (by simp) (by simp) (by simp) rfl) ?_
    refine run_step (.upExit _ rfl (by simp) rfl (by simp) (by simp) ⟨_, rfl⟩) ?_
    refine run_step (.join _ rfl rfl rfl (by simp) (by simp) ⟨_, rfl⟩ rfl) ?_
    exact ⟨_, .refl, rfl, rfl⟩
  obtain ⟨s, h1, h2, h3⟩ := h
  have := Finished.mk (post := posts) s h1 h3
  rw [h2] at this
  exact this

theorem quiet_of {ids : Ids ObjectId} {R : Repo ObjectId} {plan : Plan ObjectId} (hs : plan.start = Index.empty)
    (hm : plan.main = []) {sn : Snapshot ObjectId} (hp : plan.posts = [.putSnap sn]) :
    Finished (liveCfg ids 4 plan.start) (Demo.clean R) plan.main plan.posts
      (Demo.clean (applyPost ids R (.putSnap sn))) := by
  rw [hs, hm, hp]
  exact quiet ids (Demo.clean R) [.putSnap sn]

theorem clean_names {ids : Ids ObjectId} (R : Repo ObjectId) :
    ∀ p bs, (p, bs) ∈ (Demo.clean R).cwd.packs → p = ids.packId (Pack.manifestOf bs) := by
  intro p bs h; cases h

/-- The root less `a/x`, and that less `c`. -/
def root1 : Tree ObjectId :=
  [([97], ⟨.dir (Demo.treeBlob C31.treeY).id, Demo.dirMd⟩), ([98], ⟨.dir Demo.treeB.id, Demo.dirMd⟩),
   ([99], ⟨.file [Demo.junk.id], Demo.fileMd Demo.junk.data.length 5⟩)]
def root2 : Tree ObjectId :=
  [([97], ⟨.dir (Demo.treeBlob C31.treeY).id, Demo.dirMd⟩), ([98], ⟨.dir Demo.treeB.id, Demo.dirMd⟩)]

/-- As `C31.repoF`, with those trees. -/
def repoG (snaps : List (Snapshot ObjectId)) : Repo ObjectId :=
  Demo.repoOf C31.ids1
    [[C31.chunkX, Demo.chunkA, Demo.chunkB, Demo.junk],
     [Demo.treeBlob C31.treeXY, Demo.treeB, Demo.treeBlob (C31.rootOf Demo.junk), Demo.treeBlob C31.treeY,
      Demo.treeBlob root1, Demo.treeBlob root2]] snaps

/-- Leave out the file `c`. -/
def noC (p : Path) : Bool := decide (p ≠ [[99]])

def target1 : Snap ObjectId := C31.targetF Demo.junk
def repo1 : Repo ObjectId := repoG [target1.1]
def plan1 : Plan ObjectId :=
  Demo.planOf (filterPlan Demo.codec (Check.opened repo1) target1 C31.noX C31.argsF)
def sn1 : Snapshot ObjectId := filteredSnap C31.argsF target1.1 (Demo.treeBlob root1).id
def repo2 : Repo ObjectId := applyPost C31.ids1 repo1 (.putSnap sn1)
def target2 : Snap ObjectId := (sn1, C31.ids1.snapId sn1)
def plan2 : Plan ObjectId :=
  Demo.planOf (filterPlan Demo.codec (Check.opened repo2) target2 noC C31.argsF)
def sn2 : Snapshot ObjectId := filteredSnap C31.argsF sn1 (Demo.treeBlob root2).id
def repo3 : Repo ObjectId := applyPost C31.ids1 repo2 (.putSnap sn2)

theorem healthy1 : Healthy Demo.codec C31.ids1 repo1 := Check.healthy_sound (k := 3) (by decide +kernel)

theorem plan1_eq : filterPlan Demo.codec (Check.opened repo1) target1 C31.noX C31.argsF = .ok plan1 :=
  Demo.planOf_eq (by decide +kernel)

theorem ok1 : FilterOk Demo.codec C31.ids1 (Demo.clean repo1) (Check.opened repo1) target1 :=
  C31.filterOk_of healthy1 (by decide +kernel)

theorem clash1 : FilterNoClash Demo.codec C31.ids1 4 (Demo.clean repo1) (Check.opened repo1) target1 C31.noX plan1 :=
  C31.noClash_of (by decide +kernel) (by decide +kernel) (by decide +kernel) (by decide +kernel) (by decide +kernel)
    (by decide +kernel) (by decide +kernel)

theorem posts1 : plan1.posts = [.putSnap sn1] := by decide +kernel

theorem done1 : Finished (liveCfg C31.ids1 4 plan1.start) (Demo.clean repo1) plan1.main plan1.posts
    (Demo.clean repo2) := quiet_of (by decide +kernel) (by decide +kernel) posts1

theorem new1 : .putSnap sn1 ∈ plan1.posts := by rw [posts1]; exact List.mem_singleton.mpr rfl

theorem healthy2 : Healthy Demo.codec C31.ids1 repo2 := Check.healthy_sound (k := 3) (by decide +kernel)

theorem opens2 : Opens repo2 (Check.opened repo2) := Check.opened_opens healthy2

theorem plan2_eq : filterPlan Demo.codec (Check.opened repo2) target2 noC C31.argsF = .ok plan2 :=
  Demo.planOf_eq (by decide +kernel)

theorem clash2 : FilterNoClash Demo.codec C31.ids1 4 (Demo.clean repo2) (Check.opened repo2) target2 noC plan2 :=
  C31.noClash_of (by decide +kernel) (by decide +kernel) (by decide +kernel) (by decide +kernel) (by decide +kernel)
    (by decide +kernel) (by decide +kernel)

theorem posts2 : plan2.posts = [.putSnap sn2] := by decide +kernel

theorem done2 : Finished (liveCfg C31.ids1 4 plan2.start) (Demo.clean repo2) plan2.main plan2.posts
    (Demo.clean repo3) := quiet_of (by decide +kernel) (by decide +kernel) posts2

theorem new2 : .putSnap sn2 ∈ plan2.posts := by rw [posts2]; exact List.mem_singleton.mpr rfl

/-- `filter_twice_partial` and `filter_ls_partial`: `a/x` is left out, and then `c`. -/
example : FilterOk Demo.codec C31.ids1 (Demo.clean repo1) (Check.opened repo1) target1 ∧
    FilterNoClash Demo.codec C31.ids1 4 (Demo.clean repo1) (Check.opened repo1) target1 C31.noX plan1 ∧
    filterPlan Demo.codec (Check.opened repo1) target1 C31.noX C31.argsF = .ok plan1 ∧
    Finished (liveCfg C31.ids1 4 plan1.start) (Demo.clean repo1) plan1.main plan1.posts (Demo.clean repo2) ∧
    .putSnap sn1 ∈ plan1.posts ∧ Opens repo2 (Check.opened repo2) ∧
    FilterNoClash Demo.codec C31.ids1 4 (Demo.clean repo2) (Check.opened repo2) target2 noC plan2 ∧
    (∀ p bs, (p, bs) ∈ (Demo.clean repo2).cwd.packs → p = C31.ids1.packId (Pack.manifestOf bs)) ∧
    filterPlan Demo.codec (Check.opened repo2) target2 noC C31.argsF = .ok plan2 ∧
    Finished (liveCfg C31.ids1 4 plan2.start) (Demo.clean repo2) plan2.main plan2.posts (Demo.clean repo3) ∧
    .putSnap sn2 ∈ plan2.posts ∧
    (∃ L, ls Demo.codec (Check.opened repo3) sn2 = .ok L ∧
      L.map Prod.fst = [[[97]], [[97], [121]], [[98]], [[98], [98]]]) :=
  ⟨ok1, clash1, plan1_eq, done1, new1, opens2, clash2, clean_names _, plan2_eq, done2,
    new2, by
    have h : ((ls Demo.codec (Check.opened repo3) sn2).toOption.map (fun L => L.map Prod.fst)) =
      some [[[97]], [[97], [121]], [[98]], [[98], [98]]] := by decide +kernel
    cases h1 : ls Demo.codec (Check.opened repo3) sn2 with
    | error e => rw [h1] at h; cases h
    | ok L => rw [h1] at h; exact ⟨L, rfl, Option.some.inj h⟩⟩

/-- A repository with the blobs and no snapshots, to copy into. -/
def repo0 : Repo ObjectId := repoG []

theorem healthy0 : Healthy Demo.codec C31.ids1 repo0 := Check.healthy_sound (k := 3) (by decide +kernel)

theorem copyOk_of {R : Repo ObjectId} {snaps : List (Snap ObjectId)} (h : Healthy Demo.codec C31.ids1 R)
    (hs : ∀ s ∈ snaps, (s.2, s.1) ∈ R.snapshots) :
    CopyOk Demo.codec Demo.env C31.ids1 R (Demo.clean repo0) (Check.opened R) (Check.opened repo0) snaps where
  clock := Demo.env_ok
  source := h
  fromOpens := Check.opened_opens h
  loaded := hs
  healthy := healthy0
  leftover := Demo.leftover_clean healthy0
  opens := Check.opened_opens healthy0

theorem copyClash_of {R : Repo ObjectId} {snaps : List (Snap ObjectId)} {filter : Path → Bool} {plan : Plan ObjectId}
    (hh : ∀ b ∈ Check.blobs repo0 ++ Check.blobs R ++ copyTrees Demo.codec (Check.opened R) snaps filter,
      ∀ b' ∈ emptyBlob Demo.codec :: (Check.blobs repo0 ++ Check.blobs R ++
        copyTrees Demo.codec (Check.opened R) snaps filter),
      Demo.codec.hash b.data = Demo.codec.hash b'.data → b.data = b'.data)
    (hk : ∀ b ∈ Check.blobs repo0 ++ Check.blobs R ++ copyTrees Demo.codec (Check.opened R) snaps filter,
      ∀ b' ∈ Check.blobs repo0 ++ Check.blobs R ++ copyTrees Demo.codec (Check.opened R) snaps filter,
      b.data = b'.data → b.kind = b'.kind)
    (hp : Check.packsDiffer C31.ids1 (Demo.clean repo0) plan.main = true)
    (hst : plan.start = Index.empty) (hsk : ∀ b ∈ sends plan.main, b.kind = .tree)
    (hs : plan.posts.length = 1) :
    CopyNoClash Demo.codec C31.ids1 4 R (Demo.clean repo0) (Check.opened R) snaps filter plan where
  blobs := by
    have hm : ∀ b, (Stored (Demo.clean repo0) b ∨ Has Demo.codec R b ∨
        b ∈ copyTrees Demo.codec (Check.opened R) snaps filter) →
        b ∈ Check.blobs repo0 ++ Check.blobs R ++ copyTrees Demo.codec (Check.opened R) snaps filter := by
      rintro b (h | h | h)
      · refine List.mem_append_left _ (List.mem_append_left _ ?_)
        obtain ⟨p, bs, (h | ⟨x, h, _⟩), hb⟩ := h
        · exact Check.mem_blobs.mpr ⟨p, bs, h.1, h.2, hb⟩
        · cases h
      · exact List.mem_append_left _ (List.mem_append_right _ (Check.has_iff.mp h).2)
      · exact List.mem_append_right _ h
    exact ⟨fun b b' h h' => hh b (hm b h) b'
        (h'.elim (fun h => List.mem_cons_of_mem _ (hm b' h)) (fun e => e ▸ List.mem_cons_self)),
      fun b b' h h' => hk b (hm b h) b' (hm b' h')⟩
  packs := Check.packsDiffer_sound hp
  indexes := by rw [hst]; exact C31.indexNew1 hsk (by decide +kernel)
  snaps := by
    rintro sn h1 sn' (⟨h2, _⟩ | h2)
    · obtain ⟨x, hx⟩ := List.length_eq_one_iff.mp hs
      rw [hx, List.mem_singleton] at h1 h2
      have := h2.trans h1.symm
      cases this
      rfl
    · cases h2

/-- Copying less `a/x`. -/
def planC : Plan ObjectId := Demo.planOf
  (copyPlan Demo.codec Demo.env (Demo.clean repo0) (Check.opened repo1) (Check.opened repo0) [target1] C31.noX false)
def snC : Snapshot ObjectId := { target1.1 with tree := (Demo.treeBlob root1).id }
def repoC : Repo ObjectId := applyPost C31.ids1 repo0 (.putSnap snC)
def targetC : Snap ObjectId := (snC, C31.ids1.snapId snC)
def planCF : Plan ObjectId :=
  Demo.planOf (filterPlan Demo.codec (Check.opened repoC) targetC noC C31.argsF)

theorem postsCF : planCF.posts = [.putSnap (filteredSnap C31.argsF snC (Demo.treeBlob root2).id)] := by decide +kernel

theorem healthyC : Healthy Demo.codec C31.ids1 repoC := Check.healthy_sound (k := 3) (by decide +kernel)

/-- `copy_filter_partial`: `a/x` is left out in copying and `c` in filtering. -/
example : CopyOk Demo.codec Demo.env C31.ids1 repo1 (Demo.clean repo0) (Check.opened repo1) (Check.opened repo0) [target1] ∧
    CopyNoClash Demo.codec C31.ids1 4 repo1 (Demo.clean repo0) (Check.opened repo1) [target1] C31.noX planC ∧
    copyPlan Demo.codec Demo.env (Demo.clean repo0) (Check.opened repo1) (Check.opened repo0) [target1] C31.noX false =
      .ok planC ∧
    Finished (liveCfg C31.ids1 4 planC.start) (Demo.clean repo0) planC.main planC.posts (Demo.clean repoC) ∧
    FilterOk Demo.codec C31.ids1 (Demo.clean repoC) (Check.opened repoC) targetC ∧
    FilterNoClash Demo.codec C31.ids1 4 (Demo.clean repoC) (Check.opened repoC) targetC noC planCF ∧
    filterPlan Demo.codec (Check.opened repoC) targetC noC C31.argsF = .ok planCF ∧
    (∃ w2, Finished (liveCfg C31.ids1 4 planCF.start) (Demo.clean repoC) planCF.main planCF.posts w2) ∧
    planCF.posts = [.putSnap (filteredSnap C31.argsF snC (Demo.treeBlob root2).id)] :=
  ⟨copyOk_of healthy1 (by decide +kernel),
    copyClash_of (by decide +kernel) (by decide +kernel) (by decide +kernel) (by decide +kernel) (by decide +kernel)
      (by decide +kernel),
    Demo.planOf_eq (by decide +kernel), quiet_of (by decide +kernel) (by decide +kernel) (by decide +kernel),
    C31.filterOk_of healthyC (by decide +kernel),
    C31.noClash_of (by decide +kernel) (by decide +kernel) (by decide +kernel) (by decide +kernel) (by decide +kernel)
      (by decide +kernel) (by decide +kernel),
    Demo.planOf_eq (by decide +kernel), ⟨_, quiet_of (by decide +kernel) (by decide +kernel) postsCF⟩, postsCF⟩

def planFC : Plan ObjectId := Demo.planOf
  (copyPlan Demo.codec Demo.env (Demo.clean repo0) (Check.opened repo2) (Check.opened repo0) [target2] noC false)

theorem postsFC : planFC.posts = [.putSnap { sn1 with tree := (Demo.treeBlob root2).id }] := by decide +kernel

/-- `filter_copy_partial`: `a/x` is left out in filtering and `c` in copying. -/
example : CopyOk Demo.codec Demo.env C31.ids1 repo2 (Demo.clean repo0) (Check.opened repo2) (Check.opened repo0) [target2] ∧
    CopyNoClash Demo.codec C31.ids1 4 repo2 (Demo.clean repo0) (Check.opened repo2) [target2] noC planFC ∧
    copyPlan Demo.codec Demo.env (Demo.clean repo0) (Check.opened repo2) (Check.opened repo0) [target2] noC false =
      .ok planFC ∧
    (∃ v', Finished (liveCfg C31.ids1 4 planFC.start) (Demo.clean repo0) planFC.main planFC.posts v') ∧
    target2 = (sn1, C31.ids1.snapId sn1) ∧ planFC.posts = [.putSnap { sn1 with tree := (Demo.treeBlob root2).id }] :=
  ⟨copyOk_of healthy2 (by decide +kernel),
    copyClash_of (by decide +kernel) (by decide +kernel) (by decide +kernel) (by decide +kernel) (by decide +kernel)
      (by decide +kernel),
    Demo.planOf_eq (by decide +kernel), ⟨_, quiet_of (by decide +kernel) (by decide +kernel) postsFC⟩, rfl,
    postsFC⟩

end Backpak.C99
