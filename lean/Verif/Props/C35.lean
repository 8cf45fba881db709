import Verif.Props.C34
import Verif.Props.C20

/-!
# C35 - Size accounting works on every backed-up snapshot

It does not: backups do not store the empty tree, whose size is then unknown.
-/

namespace Backpak.C35

open Spec Pipeline

variable {Id : Type} [LinearOrder Id] {C : Codec Id} {ids : Ids Id} {R : Repo Id} {src : Source Id}

theorem sub_empty (hS : Sound C R) {t : Tree Id} {d : Dir Bytes} (h : DirHolds C R t d) (hd : ¬ NoneEmpty d) :
    ∃ s, Sub t s ∧ Reaches (TreeAt C R) s C.emptyId := by
  have lift : ∀ {e : Name × Node Id} {t : Tree Id}, (∃ s, Sub t s ∧ Reaches (TreeAt C R) s C.emptyId) →
      ∃ s, Sub (e :: t) s ∧ Reaches (TreeAt C R) s C.emptyId := by
    rintro e t ⟨s, ⟨n, md, h1⟩, h2⟩
    exact ⟨s, ⟨n, md, List.mem_cons_of_mem _ h1⟩, h2⟩
  unfold DirHolds at h
  induction h with
  | nil => exact absurd trivial hd
  | file _ _ ih => exact lift (ih hd)
  | link _ ih => exact lift (ih hd)
  | @dir n id md t t' sub d h1 h2 _ ih1 ih2 =>
    by_cases hn : sub = .nil
    · subst hn
      cases h2
      refine ⟨id, ⟨n, md, List.mem_cons_self ..⟩, ?_⟩
      have : C.emptyId = id := h1.2.1
      rw [this]
      exact .refl
    · by_cases hs : NoneEmpty sub
      · exact lift (ih2 (fun hr => hd ⟨hn, hs, hr⟩))
      · obtain ⟨s, ⟨m, md', h3⟩, h4⟩ := ih1 hs
        exact ⟨id, ⟨n, md, List.mem_cons_self ..⟩, .step h1 h3 h4⟩

/-- The empty tree is one of a snapshot's trees exactly when it has an empty directory. -/
theorem reaches_empty_iff (hS : Sound C R) {root : Id} {d : Dir Bytes} (h : Holds C R root d) :
    Reaches (TreeAt C R) root C.emptyId ↔ d = .nil ∨ ¬ NoneEmpty d := by
  obtain ⟨t, h1, h2⟩ := h
  constructor
  · intro hr
    by_contra hc
    have hc : d ≠ .nil ∧ NoneEmpty d :=
      ⟨fun he => hc (.inl he), Classical.byContradiction (fun he => hc (.inr he))⟩
    obtain ⟨t', d', g1, g2, _⟩ := C34.none_empty (T := TreeAt C R) (fun _ _ _ a b => hS.treeAt_one a b) hr h1 h2
      hc.1 hc.2
    exact g2 (hS.treeAt_one g1 treeAt_nil)
  · rintro (rfl | h)
    · cases h2
      have : C.emptyId = root := h1.2.1
      rw [this]
      exact .refl
    · obtain ⟨s, ⟨n, md, h3⟩, h4⟩ := sub_empty hS h2 h
      exact .step h1 h3 h4

/-- Sizes of snapshots are shown exactly when none has an empty directory, or something with the
empty tree's ID is stored. -/
theorem works_iff_partial (hH : Healthy C ids R) (ho : Opens R src) (hE : C34.EmptyOwn C R) {snaps : List (Snapshot Id)}
    (hs : ∀ s ∈ snaps, Readable C R s) :
    (∃ zs, snapshotsSizes C src snaps = .ok zs) ↔
      ∀ s ∈ snaps, ∀ d, Holds C R s.tree d → (d ≠ .nil ∧ NoneEmpty d) ∨ ∃ b, Has C R b ∧ b.id = C.emptyId := by
  constructor
  · rintro ⟨zs, h⟩ s hs' d hd
    by_cases hr : d = .nil ∨ ¬ NoneEmpty d
    · have := (C34.countable_of_ok hH ho hE hs h s hs').2 C.emptyId [] ((reaches_empty_iff hH.sound hd).mpr hr)
        treeAt_nil
      obtain ⟨b, h1, h2, _⟩ := this
      exact .inr ⟨b, h1, h2⟩
    · exact .inl ⟨fun he => hr (.inl he), Classical.byContradiction (fun he => hr (.inr he))⟩
  · intro h
    obtain ⟨zs, h1, _⟩ := C34.countable_ok hH ho (snaps := snaps) (fun s hs' => by
      obtain ⟨d, hd⟩ := hs s hs'
      refine ⟨⟨d, hd⟩, ?_⟩
      rcases h s hs' d hd with ⟨h1, h2⟩ | ⟨b, h1, h2⟩
      · exact C34.stored_of_none_empty hH.sound hd h1 h2
      · intro u t hr hu
        rcases hu.2.2 with rfl | hb
        · have : C.emptyId = u := hu.2.1
          exact ⟨b, h1, by rw [h2, this], hE b h1 h2⟩
        · exact ⟨_, hb, rfl, rfl⟩)
    exact ⟨zs, h1⟩

variable {cut : Bytes → Nat} {cores : Nat} {w w' : World Id} {snaps : List (Snap Id)} {a : BackupArgs} {plan : Plan Id}

/-- Whatever a backup stores was there before or is in what it backs up. -/
theorem stored_after (hB : BackupOk C cut ids w src snaps a) (hN : NoClash C cut ids cores w src snaps a plan)
    (hp : backupPlan C cut w src snaps a = .ok plan) (hlive : a.dryRun = false) {s : State Id}
    (h : Reachable (liveCfg ids cores plan.start) w plan.main s) {b : Blob Id} (hb : Has C s.world.repo b) :
    (∃ p m, (Listed w.repo.indexes p m ∨ (p, m) ∈ plan.start.packs) ∧ Pack.entryOf b ∈ m) ∨
      b ∈ offered C cut src snaps a := by
  obtain ⟨F, known, here, root, L, hF, hk, hr, hbb, hoff, hm, hpost⟩ := plan_ok hp
  have hu := hN.blobs
  rw [hoff] at hu
  obtain ⟨hfresh, hall⟩ := offer_fresh hB.leftover
    (packed_iff hB.healthy.sound hB.leftover hB.opens hk hr) (offered_made hB.runs hF hbb) hu
  have hmain : plan.main = mainOf here
      (L.foldl offer ⟨BMap.keys known ++ listedIds plan.start, []⟩).sent := by
    rw [hm, hlive]; rfl
  have hpk := hN.packs
  have hix := hN.indexes
  rw [hmain] at hpk h
  rw [hmain, sends_mainOf] at hix
  have hrun := runOk_add (cores := cores) hB.healthy.sound hB.healthy.pack_names hB.leftover hr hfresh hpk
  have h' := reachable_allowed (c := liveCfg ids cores plan.start)
    (c' := ⟨ids, true, cores, plan.start, Involved w (mainOf here
      (L.foldl offer ⟨BMap.keys known ++ listedIds plan.start, []⟩).sent)⟩)
    rfl rfl rfl rfl (fun cur hc => .inr (.inr hc)) h
  rcases has_after hrun (start_sup hB.leftover hr) (by
    rw [sends_mainOf]
    rintro x ⟨x1, x2, news, rest, x3, x4, x5, x6⟩
    exact hix x ⟨x1, x2, news, rest, x3, fun e he => ⟨(x4 e he).1, trivial⟩, x5, x6⟩) h' hb with h1 | h1
  · exact .inl h1
  · rw [sends_mainOf] at h1
    obtain ⟨new, h2, h3, _⟩ := offer_all L ⟨BMap.keys known ++ listedIds plan.start, []⟩
    rw [h2] at h1
    rw [hoff]
    exact .inr (h3.subset (by simpa using h1))

/-- After a backup of anything with an empty directory, neither `usage` nor `snapshots --sizes`
works, unless something with the empty tree's ID had been stored or is stored by it. -/
theorem fails_after_backup (hB : BackupOk C cut ids w src snaps a) (hN : NoClash C cut ids cores w src snaps a plan)
    (hp : backupPlan C cut w src snaps a = .ok plan) (sn : Snapshot Id) (hsn : plan.post = .ok [.putSnap sn])
    (hempty : ¬ NoneEmpty (arrange (keep a.filter a.pathOf a.fs)))
    (hold : ∀ b, Stored w b → b.id ≠ C.emptyId) (hnew : ∀ b ∈ offered C cut src snaps a, b.id ≠ C.emptyId)
    (h : Finished (C13.cfg ids cores a plan) w plan.main plan.posts w')
    {src' : Source Id} (ho : Opens w'.repo src') {l : List (Snapshot Id)}
    (hl : ∀ s, s ∈ l ↔ ∃ i, (i, s) ∈ w'.repo.snapshots) :
    (¬ ∃ zs, snapshotsSizes C src' l = .ok zs) ∧ ¬ ∃ z, usage C src' l = .ok z := by
  obtain ⟨h1, _, h2, h3⟩ := C20.snapshot_holds_partial w w' hB hN hp sn hsn h
  have hd : a.dryRun = false := by
    obtain ⟨F, known, here, root, L, _, _, _, _, _, _, hpost⟩ := plan_ok hp
    rw [hsn] at hpost
    rcases post_cases hpost.symm with h1 | ⟨h1, _⟩
    · cases h1
    · exact h1
  have hposts : plan.posts = [.putSnap sn] := by unfold Plan.posts; rw [hsn]
  have hno : ∀ b, Has C w'.repo b → b.id ≠ C.emptyId := by
    intro b hb
    rw [hposts] at h
    cases h with
    | mk s hs hj =>
      have hcfg : C13.cfg ids cores a plan = liveCfg ids cores plan.start := by simp [C13.cfg, liveCfg, hd]
      rw [hcfg] at hs
      rcases stored_after hB hN hp hd hs (b := b) hb with ⟨p, m, h4, h5⟩ | h4
      · obtain ⟨F, known, here, root, L, _, _, hr, _⟩ := plan_ok hp
        obtain ⟨bs, h6, rfl⟩ : ∃ bs, (LivePack w.repo p bs ∨ WipPack w p bs) ∧ m = Pack.manifestOf bs := by
          rcases h4 with h4 | h4
          · obtain ⟨bs, h6, h7⟩ := hB.healthy.present p m h4
            exact ⟨bs, .inl ⟨by rw [h7]; exact h4, h6⟩, h7.symm⟩
          · rcases resumeFrom_ok hr with ⟨_, g2, _⟩ | ⟨g2, _⟩
            · rw [g2] at h4; cases h4
            · obtain ⟨bs, g3, rfl⟩ := hB.leftover.there _ p m g2 h4
              exact ⟨bs, .inr ⟨_, g2, h4, g3⟩, rfl⟩
        obtain ⟨c, g1, g2⟩ := List.mem_map.mp h5
        have g3 : c.id = b.id := congrArg Entry.id g2
        rw [← g3]
        exact hold c ⟨p, bs, h6, g1⟩
      · exact hnew b h4
  have hE : C34.EmptyOwn C w'.repo := fun b hb he => absurd he (hno b hb)
  have hread : ∀ s ∈ l, Readable C w'.repo s := fun s hs => by
    obtain ⟨i, hi⟩ := (hl s).mp hs
    exact h3.readable i s hi
  have hfail : ¬ ∃ zs, snapshotsSizes C src' l = .ok zs := by
    rw [works_iff_partial h3 ho hE hread]
    intro hall
    rcases hall sn ((hl sn).mpr ⟨_, h1⟩) _ h2 with ⟨_, g⟩ | ⟨b, g1, g2⟩
    · exact hempty g
    · exact hno b g1 g2
  exact ⟨hfail, fun hz => hfail ((C34.usage_iff h3 ho hE hread).mp hz)⟩

/-- A backup of two files and a directory holding a file and an empty directory, into an empty
repository: it finishes, and the size of its snapshot cannot be shown. -/
theorem sizes_fail : ∃ w', Finished (C13.cfg Demo.ids 4 Demo.args0 Demo.plan0) Demo.world0 Demo.plan0.main
      Demo.plan0.posts w' ∧ Healthy Demo.codec Demo.ids w'.repo ∧
    w'.repo.snapshots = [(Demo.ids.snapId Demo.snap0, Demo.snap0)] ∧ (∃ src', Opens w'.repo src') ∧
    ∀ src', Opens w'.repo src' → (¬ ∃ zs, snapshotsSizes Demo.codec src' [Demo.snap0] = .ok zs) ∧
      ¬ ∃ z, usage Demo.codec src' [Demo.snap0] = .ok z := by
  obtain ⟨t, ht, hj⟩ := C20.finishes Demo.world0 Demo.backupOk0 Demo.noClash0 rfl (Nat.le_refl 4)
    BMap.sorted_nil Demo.plan0_eq _ .refl
  have hf := Finished.mk (post := Demo.plan0.posts) t ht hj
  have h1 := C20.snapshot_holds_partial Demo.world0 _ Demo.backupOk0 Demo.noClash0 Demo.plan0_eq Demo.snap0
    Demo.post0 hf
  have hposts : Demo.plan0.posts = [.putSnap Demo.snap0] := by unfold Plan.posts; rw [Demo.post0]
  have hsn := (backup_run Demo.backupOk0 Demo.noClash0 Demo.plan0_eq rfl ht).2.2.1
  have hl : (Demo.plan0.posts.foldl (applyPost (C13.cfg Demo.ids 4 Demo.args0 Demo.plan0).ids)
      t.world.repo).snapshots = [(Demo.ids.snapId Demo.snap0, Demo.snap0)] := by
    rw [hposts]
    show BMap.insert _ _ t.world.repo.snapshots = _
    rw [hsn]
    rfl
  refine ⟨_, hf, h1.2.2.2, hl, opens_exists h1.2.2.2.sound, ?_⟩
  · intro src' ho
    refine fails_after_backup Demo.backupOk0 Demo.noClash0 Demo.plan0_eq Demo.snap0 Demo.post0 ?_ ?_ ?_ hf ho ?_
    · have : arrange (Spec.keep Demo.args0.filter Demo.args0.pathOf Demo.args0.fs) =
        (.leaf [97] (Demo.fileMd 3 5) (.file [1, 2, 3]) <|
         .leaf [98] (Demo.fileMd 3 6) (.file [1, 2, 3]) <|
         .dir [115] Demo.dirMd
          (.leaf [99] (Demo.fileMd 1 7) (.file [4]) <| .dir [101] Demo.dirMd .nil .nil) .nil) := by decide +kernel
      rw [this]
      intro h
      exact h.2.1.1 rfl
    · rintro b ⟨p, bs, (⟨⟨i, x, ⟨h, _⟩, _⟩, _⟩ | ⟨x, h, _⟩), _⟩ <;> cases h
    · decide +kernel
    · intro s
      show _ ↔ ∃ i, (i, s) ∈ (Demo.plan0.posts.foldl (applyPost (C13.cfg Demo.ids 4 Demo.args0 Demo.plan0).ids)
        t.world.repo).snapshots
      rw [hl]
      simp

end Backpak.C35
