import Verif.Lemmas.TreeId
import Verif.Props.C20
import Verif.Props.C30
import Verif.Props.C31
import Verif.Props.C69
import Verif.Props.C95

/-!
# C96 - The ID of a snapshot's tree tells what was backed up
-/

namespace Backpak.C96

open Spec TreeId Pipeline

variable {Id : Type} [LinearOrder Id] {C : Codec Id} {cut : Bytes → Nat} {ids : Ids Id} {ids' : Ids Id} {cores : Nat}
  {R R' : Repo Id} {src : Source Id} {snaps : List (Snap Id)} {a : BackupArgs} {plan : Plan Id} {filter : Path → Bool}

/-- The ID of a tree is a function of the files it stands for. -/
theorem tree_id {id : Id} {d : Dir Bytes} (h : HoldsCut C R cut id d) : id = idOf C cut d := by
  obtain ⟨t, ht, hd⟩ := h
  rw [idOf, ← rel_treeOf (C := C) (fun _ _ h => h.2) (fun _ _ h => h.2.1) hd, ht.2.1]

/-- Two snapshots, of one repository or of two, have the same tree exactly if they stand for the same
files. -/
theorem same_tree_iff {s s' : Snapshot Id} {d d' : Dir Bytes} (hc : Chunk.Contract cut)
    (h : HoldsCut C R cut s.tree d) (h' : HoldsCut C R' cut s'.tree d') (hch : ChunksDiffer C cut d d')
    (hdi : DirsDiffer C cut d d') : s.tree = s'.tree ↔ d = d' := by
  rw [tree_id h, tree_id h']
  constructor
  · intro he
    obtain ⟨t, _, hd⟩ := h
    obtain ⟨t', _, hd'⟩ := h'
    exact treeOf_inj hc d d' (rel_plain hd) (rel_plain hd') hch
      (fun a b ha hb => hdi a b (.inr ha) (.inr hb)) (hdi d d' (.inl rfl) (.inl rfl) he)
  · rintro rfl
    rfl

/-! ## Keeping things as they are -/

/-- Files stay cut as they are by any command that leaves what a snapshot stands for, if no two trees
hash alike. -/
theorem stays {id : Id} {d : Dir Bytes} (hagree : ∀ id t t', TreeAt C R id t → TreeAt C R' id t' → t = t')
    (h : HoldsCut C R cut id d) (h' : Holds C R' id d) : HoldsCut C R' cut id d := holdsCut_move hagree h h'

/-- A repository to which things are only added. -/
theorem stays_added {id : Id} {d : Dir Bytes} (hall : ∀ b, Has C R b → Has C R' b) (h : HoldsCut C R cut id d) :
    HoldsCut C R' cut id d := by
  obtain ⟨t, ht, hd⟩ := h
  have hT : ∀ id t, TreeAt C R id t → TreeAt C R' id t := fun _ _ h => ⟨h.1, h.2.1, h.2.2.imp (fun e => e) (hall _)⟩
  exact ⟨t, hT _ _ ht, hd.mono (fun _ _ h => ⟨has_mono_file hall h.1, h.2⟩) hT⟩

/-! ## Backups -/

/-- What a backup takes over from its parent is cut by the chunker, if the parent was. -/
theorem parent_cut {w : World Id} (hB : BackupRuns C cut ids w src snaps a)
    (hcut : ∀ p, parentSnapshot a.paths snaps = some p → ∃ d, HoldsCut C w.repo cut p.tree d) {F : Forest Id}
    (hF : parentForest C src (parentSnapshot a.paths snaps) = .ok F) :
    Reuse (fun cs x => (FileHolds C w.repo cs x ∧ cs = (Chunk.chunkFile C.hash cut x).map Blob.id) ∧
      cs.length < 2 ^ 64) F
      (((parentSnapshot a.paths snaps).map (·.tree)).bind (fun id => F.get? id))
      (keep a.filter a.pathOf a.fs) := by
  cases hp : parentSnapshot a.paths snaps with
  | none => exact reuse_none _ _ _
  | some p =>
    rw [hp] at hF
    unfold parentForest at hF
    simp only at hF
    cases hf : forestFromRoot C src p.tree (newTreeCache C) with
    | error e => rw [hf] at hF; cases hF
    | ok r =>
      rw [hf] at hF
      obtain ⟨f, cache⟩ := r
      have hF : f = F := by cases hF; rfl
      subst hF
      have hex := C23.forest_exact hB.sound hB.opens p.tree (newTreeCache C) f cache
        newTreeCache_ok hf
      obtain ⟨d0, t0, ht0, hd0⟩ := hcut p hp
      refine reuse_of_faithful _ _ d0 ?_ (hB.faithful p d0 hp (C95.holdsCut_holds ⟨t0, ht0, hd0⟩))
      intro t ht
      simp only [Option.map_some, Option.bind_some] at ht
      have : t = t0 := hB.sound.treeAt_one ((hex _ _).mp ht).2 ht0
      subst this
      refine rel_in_forest (fun id t h1 h2 => (hex id t).mpr ⟨h1, h2⟩) ?_
        (fun x hx => reaches_sub .refl ht0 hx)
      have hb : ∀ n x, (n, x) ∈ t → Serde.OkContents x.contents := fun n x hx => ht0.1.contents _ hx
      clear ht hex ht0
      induction hd0 with
      | nil => exact .nil
      | @file n cs md t x d h1 _ ih =>
        exact .file ⟨h1, hb n _ List.mem_cons_self⟩ (ih (fun n x hx => hb n x (List.mem_cons_of_mem _ hx)))
      | link _ ih => exact .link (ih (fun n x hx => hb n x (List.mem_cons_of_mem _ hx)))
      | dir h0 _ _ ih1 ih2 =>
        exact .dir h0 (ih1 (fun n x hx => h0.1.contents _ hx)) (ih2 (fun n x hx => hb n x (List.mem_cons_of_mem _ hx)))

/-- The tree of the snapshot a backup is to make is a function of the files it keeps: neither the
repository nor the parent nor what was left by an interrupted backup makes a difference. -/
theorem planned {w : World Id} (hB : BackupRuns C cut ids w src snaps a)
    (hcut : ∀ p, parentSnapshot a.paths snaps = some p → ∃ d, HoldsCut C w.repo cut p.tree d)
    (hp : backupPlan C cut w src snaps a = .ok plan) {sn : Snapshot Id} (hsn : plan.post = .ok [.putSnap sn]) :
    sn.tree = idOf C cut (arrange (keep a.filter a.pathOf a.fs)) := by
  obtain ⟨F, known, here, root, L, hF, hk, hr, hb, hoff, hm, hpost⟩ := plan_ok hp
  rw [hsn] at hpost
  rcases post_cases hpost.symm with h | ⟨_, h⟩
  · cases h
  cases h
  obtain ⟨t, h1, h2, h3, h4⟩ := backup_rel (PF := fun cs x => cs = (Chunk.chunkFile C.hash cut x).map Blob.id)
    (PT := fun id t => C.hash (C.encTree t) = id) hB.chunker (fun _ _ => rfl) (fun _ _ _ => rfl) hB.fits hB.few
    hB.sorted ((parent_cut hB hcut hF).mono (fun _ _ h => ⟨h.1.2, h.2⟩)) hb
  show root = _
  rw [h2, idOf, ← rel_treeOf (C := C) (fun _ _ h => h) (fun _ _ h => h) h4]

/-- Two backups of the same files, into any repositories in good order, against any parents, give the
same tree. -/
theorem same_files_same_tree {w w' : World Id} {src' : Source Id} {snaps' : List (Snap Id)} {a' : BackupArgs}
    {plan' : Plan Id} (hB : BackupRuns C cut ids w src snaps a) (hB' : BackupRuns C cut ids' w' src' snaps' a')
    (hcut : ∀ p, parentSnapshot a.paths snaps = some p → ∃ d, HoldsCut C w.repo cut p.tree d)
    (hcut' : ∀ p, parentSnapshot a'.paths snaps' = some p → ∃ d, HoldsCut C w'.repo cut p.tree d)
    (hp : backupPlan C cut w src snaps a = .ok plan) (hp' : backupPlan C cut w' src' snaps' a' = .ok plan')
    {sn sn' : Snapshot Id} (hsn : plan.post = .ok [.putSnap sn]) (hsn' : plan'.post = .ok [.putSnap sn'])
    (hsame : keep a.filter a.pathOf a.fs = keep a'.filter a'.pathOf a'.fs) : sn.tree = sn'.tree := by
  rw [planned hB hcut hp hsn, planned hB' hcut' hp' hsn', hsame]

/-- When a backup has finished, its snapshot stands for what was backed up, cut by the chunker. -/
theorem finished_cut_partial (w w' : World Id) (hB : BackupOk C cut ids w src snaps a)
    (hN : NoClash C cut ids cores w src snaps a plan)
    (hcut : ∀ p, parentSnapshot a.paths snaps = some p → ∃ d, HoldsCut C w.repo cut p.tree d)
    (hp : backupPlan C cut w src snaps a = .ok plan) (sn : Snapshot Id)
    (hsn : plan.post = .ok [.putSnap sn])
    (h : Finished (C13.cfg ids cores a plan) w plan.main plan.posts w') :
    (ids.snapId sn, sn) ∈ w'.repo.snapshots ∧
    HoldsCut C w'.repo cut sn.tree (arrange (keep a.filter a.pathOf a.fs)) ∧
    ∀ i s, (i, s) ∈ w'.repo.snapshots → s = sn ∨ ((i, s) ∈ w.repo.snapshots ∧
      ∀ d, HoldsCut C w.repo cut s.tree d → HoldsCut C w'.repo cut s.tree d) := by
  obtain ⟨hin, _⟩ := C20.snapshot_holds_partial w w' hB hN hp sn hsn h
  refine ⟨hin, ?_⟩
  have hposts : plan.posts = [.putSnap sn] := by unfold Plan.posts; rw [hsn]
  obtain ⟨F, known, here, root, L, hF, hk, hr, hb, hoff, hm, hpost⟩ := plan_ok hp
  rw [hsn] at hpost
  rcases post_cases hpost.symm with h3 | ⟨hlive, h3⟩
  · cases h3
  cases h3
  have hcfg : C13.cfg ids cores a plan = liveCfg ids cores plan.start := by
    simp [C13.cfg, liveCfg, hlive]
  cases h with
  | mk s hs hj =>
    rw [hcfg] at hs
    have hu := hN.blobs
    rw [hoff] at hu
    obtain ⟨hfresh, hall⟩ := offer_fresh hB.leftover
      (packed_iff hB.healthy.sound hB.leftover hB.opens hk hr) (offered_made hB.runs hF hb) hu
    have hmain : plan.main = mainOf here
        (L.foldl offer ⟨BMap.keys known ++ listedIds plan.start, []⟩).sent := by
      rw [hm, hlive]; rfl
    have hpk := hN.packs
    have hix := hN.indexes
    rw [hmain] at hpk hs
    rw [hmain, sends_mainOf] at hix
    obtain ⟨g1, g2, g3, g4, g5⟩ := add_run hB.healthy hB.leftover hr hfresh hpk hix hs
    have hmade := C95.made (R := s.world.repo) hB.chunker hB.fits hB.few hB.sorted
      ((parent_cut hB.runs hcut hF).mono (fun _ _ h => ⟨⟨has_mono_file g4 h.1.1, h.1.2⟩, h.2⟩)) hb
      (fun b hbL => g5 hj b (by
        rcases hall b hbL with ⟨p, bs, h1, h2⟩ | h1
        · exact .inr ⟨p, bs, h1, h2⟩
        · exact .inl h1))
    obtain ⟨t, ht, hd⟩ := hmade
    rw [hposts]
    refine ⟨stays_added (R := s.world.repo) (fun b hb => hb) ⟨t, ht, hd⟩, fun i s' hs' => ?_⟩
    rcases BMap.mem_insert_of (m := s.world.repo.snapshots) hs' with ⟨_, h1⟩ | h1
    · exact .inl h1
    · rw [g3] at h1
      exact .inr ⟨h1, fun d hd => stays_added (fun b hb => g4 b hb) hd⟩

/-- So in a repository that only such backups have added to, every snapshot is cut by the chunker:
what is asked of the parent above always holds. -/
theorem alike_partial (w w' : World Id) (hB : BackupOk C cut ids w src snaps a)
    (hN : NoClash C cut ids cores w src snaps a plan) (hA : CutAlike C cut w.repo)
    (hp : backupPlan C cut w src snaps a = .ok plan) (sn : Snapshot Id)
    (hsn : plan.post = .ok [.putSnap sn])
    (h : Finished (C13.cfg ids cores a plan) w plan.main plan.posts w') : CutAlike C cut w'.repo := by
  have hcut : ∀ p, parentSnapshot a.paths snaps = some p → ∃ d, HoldsCut C w.repo cut p.tree d := by
    intro p hpar
    obtain ⟨i, hi⟩ := parent_mem hpar
    exact hA _ _ (hB.loaded _ hi)
  obtain ⟨_, h1, h2⟩ := finished_cut_partial w w' hB hN hcut hp sn hsn h
  intro i s hs
  rcases h2 i s hs with rfl | ⟨h3, h4⟩
  · exact ⟨_, h1⟩
  · obtain ⟨d, hd⟩ := hA i s h3
    exact ⟨d, h4 d hd⟩

/-! ## Other commands -/

/-- Filtering a snapshot gives the tree that the files less what is skipped have. -/
theorem filter_tree {w : World Id} {target : Snap Id} {fa : FilterArgs} (h : FilterOk C ids w src target)
    {d : Dir Bytes} (hd : HoldsCut C w.repo cut target.1.tree d)
    (hp : filterPlan C src target filter fa = .ok plan) {sn : Snapshot Id} (hsn : .putSnap sn ∈ plan.posts) :
    sn.tree = idOf C cut (keep filter (fun n => [n]) d) := by
  obtain ⟨F, cache, known, d', L, root, hF, hk, hd', hrep, hroot, hL, hstart, hmain, hposts⟩ := filterPlan_ok h hp
  have hS := h.healthy.sound
  have hFo : ForestOf C w.repo target.1.tree F := C23.forest_exact hS h.opens _ _ F cache newTreeCache_ok hF
  have : root = idOf C cut (keep filter (fun n => [n]) d) := by
    rw [hroot, filterTree_idOf hS (fun id t hi => ((hFo id t).mp hi).2) hd _ []
      ((hFo.tall (holds_grounded hd')).mono (Nat.le_succ _))]
    rfl
  rw [hposts] at hsn
  split at hsn
  · cases hsn
  · split at hsn
    · cases hsn
    · rw [List.mem_singleton] at hsn
      cases hsn
      rw [← this]
      unfold filteredSnap
      split <;> rfl

/-- A snapshot that is filtered after the backup has the tree it would have had if the backup had
skipped those files as well. (The patterns of filter-snapshot are matched with paths from the last
names of what was backed up, those of the backup with full paths.) -/
theorem filter_is_skip {w w2 : World Id} {src2 : Source Id} {snaps2 : List (Snap Id)} {target : Snap Id}
    {fa : FilterArgs} {plan2 : Plan Id} {a2 : BackupArgs} (h : FilterOk C ids w src target)
    (hd : HoldsCut C w.repo cut target.1.tree (arrange (keep a.filter a.pathOf a.fs)))
    (hsorted : SubsSorted a.fs) (hnames : a.fs.names.Nodup)
    (hp : filterPlan C src target filter fa = .ok plan) {sn : Snapshot Id} (hsn : .putSnap sn ∈ plan.posts)
    (hB2 : BackupRuns C cut ids' w2 src2 snaps2 a2)
    (hcut2 : ∀ p, parentSnapshot a2.paths snaps2 = some p → ∃ d, HoldsCut C w2.repo cut p.tree d)
    (hp2 : backupPlan C cut w2 src2 snaps2 a2 = .ok plan2) {sn2 : Snapshot Id}
    (hsn2 : plan2.post = .ok [.putSnap sn2]) (hfs : a2.fs = a.fs) (hpath : a2.pathOf = a.pathOf)
    (hboth : ∀ n q, a2.filter (a.pathOf n ++ q) = (a.filter (a.pathOf n ++ q) && filter (n :: q))) :
    sn.tree = sn2.tree := by
  rw [filter_tree h hd hp hsn, planned hB2 hcut2 hp2 hsn2,
    keep_arrange (subs_keep _ hsorted) (hnames.sublist (keep_names _ _ _)), hfs, hpath,
    keep_keep a.fs a.pathOf (fun n => [n]) hboth]

/-- Copying a snapshot gives the tree that its files less what is skipped have, and all else of it as
it is. -/
theorem copy_tree {env : CacheEnv Id} {from_ dst : Source Id} {w : World Id} {d : Dir Bytes}
    (hC : CopyOk C env ids R w from_ dst snaps) (hp : copyPlan C env w from_ dst snaps filter false = .ok plan)
    {s : Snap Id} (hs : s ∈ snaps) (hd : HoldsCut C R cut s.1.tree d) :
    .putSnap { s.1 with tree := idOf C cut (keep filter (fun n => [n]) d) } ∈ plan.posts := by
  have hS := hC.source.sound
  unfold copyPlan at hp
  split at hp
  · cases hp
  · rename_i sfs hsfs
    dsimp only at hp
    obtain ⟨h1, h2⟩ := loadForests_sound hS hC.fromOpens snaps newTreeCache_ok hsfs
    have hin : ∀ e ∈ sfs, (e.1.2, e.1.1) ∈ R.snapshots := by
      intro e he
      refine hC.loaded e.1 ?_
      rw [← h1]
      exact List.mem_map.mpr ⟨e, he, rfl⟩
    obtain ⟨rs, h3, h4⟩ := walkSnapshots_ok hC.clock hS hC.fromOpens filter sfs
      (fun e he => (h2 e he).1) (fun e he => hC.source.readable _ _ (hin e he))
    split at hp
    · cases hp
    · rename_i known hk
      split at hp
      · cases hp
      · rename_i start here hr
        obtain ⟨r', h5, _⟩ := h4 ⟨BMap.keys known ++ listedIds start, []⟩ ReaderState.new C33.settled_new
        rw [h5] at hp
        simp only [Bool.false_eq_true, if_false, Except.ok.injEq] at hp
        subst hp
        show _ ∈ List.map _ _
        refine List.mem_map.mpr ⟨_, ?_, rfl⟩
        rw [← h1] at hs
        obtain ⟨e, he, rfl⟩ := List.mem_map.mp hs
        obtain ⟨r, ⟨d', hd', _, hroot, _⟩, hm⟩ :=
          C30.zipWith_mem (f := fun (e : Snap Id × Forest Id) (r : Id × List (Blob Id)) => { e.1.1 with tree := r.1 }) h3 he
        have hFo := (h2 e he).1
        rw [filterTree_idOf hS (fun id t hi => ((hFo id t).mp hi).2) hd _ []
          ((hFo.tall (holds_grounded hd')).mono (Nat.le_succ _))] at hroot
        simp only [List.nil_append] at hroot
        rw [← hroot]
        exact hm

/-! ## Cases -/

open Demo

/-- The directories of a tree, itself included. -/
def dirsOf : Dir Bytes → List (Dir Bytes)
  | .nil => []
  | .leaf _ _ _ r => dirsOf r
  | .dir _ _ s r => s :: (dirsOf s ++ dirsOf r)

theorem mem_dirsOf {s d : Dir Bytes} (h : SubDir s d) : s ∈ dirsOf d := by
  induction d with
  | nil => exact h.elim
  | leaf _ _ _ r ih => exact ih h
  | dir _ _ u r ih1 ih2 =>
    rcases h with rfl | h | h
    · exact List.mem_cons_self
    · exact List.mem_cons_of_mem _ (List.mem_append_left _ (ih1 h))
    · exact List.mem_cons_of_mem _ (List.mem_append_right _ (ih2 h))

theorem holdsCutA : HoldsCut codec repoA Demo.cut snapA.tree
    (arrange (keep C69.argsA.filter C69.argsA.pathOf C69.argsA.fs)) :=
  ⟨_, Check.treeAt_sound (t := oneFile [97] chunkA) (by decide +kernel),
    .file ⟨Check.fileAt_sound _ (by decide +kernel), by decide +kernel⟩ .nil⟩

/-- Two repositories, in one of which the file is in a directory. -/
example : Chunk.Contract Demo.cut ∧
    HoldsCut codec repoA Demo.cut snapA.tree (arrange (keep C69.argsA.filter C69.argsA.pathOf C69.argsA.fs)) ∧
    HoldsCut codec repoH Demo.cut snapH.tree dirH ∧
    ChunksDiffer codec Demo.cut (arrange (keep C69.argsA.filter C69.argsA.pathOf C69.argsA.fs)) dirH ∧
    DirsDiffer codec Demo.cut (arrange (keep C69.argsA.filter C69.argsA.pathOf C69.argsA.fs)) dirH := by
  refine ⟨cut_contract, holdsCutA, C95.holdsCutH, ?_, ?_⟩
  · have : ∀ x ∈ Check.filesOf (arrange (keep C69.argsA.filter C69.argsA.pathOf C69.argsA.fs)) ++ Check.filesOf dirH,
        ∀ y ∈ Check.filesOf (arrange (keep C69.argsA.filter C69.argsA.pathOf C69.argsA.fs)) ++ Check.filesOf dirH,
        ∀ b ∈ Chunk.chunkFile codec.hash Demo.cut x, ∀ c ∈ Chunk.chunkFile codec.hash Demo.cut y,
        b.id = c.id → b.data = c.data := by decide +kernel
    intro x y hx hy
    exact this x (List.mem_append.mpr (hx.imp Check.mem_filesOf Check.mem_filesOf)) y
      (List.mem_append.mpr (hy.imp Check.mem_filesOf Check.mem_filesOf))
  · have : ∀ s ∈ arrange (keep C69.argsA.filter C69.argsA.pathOf C69.argsA.fs) ::
          dirsOf (arrange (keep C69.argsA.filter C69.argsA.pathOf C69.argsA.fs)),
        ∀ s' ∈ dirH :: dirsOf dirH, idOf codec Demo.cut s = idOf codec Demo.cut s' →
        treeOf codec Demo.cut s = treeOf codec Demo.cut s' := by decide +kernel
    intro s s' hs hs'
    exact this s (List.mem_cons.mpr (hs.imp (fun e => e) mem_dirsOf)) s'
      (List.mem_cons.mpr (hs'.imp (fun e => e) mem_dirsOf))

/-- The file of `repoA`, backed up with a tag. -/
def argsT : BackupArgs := { C69.argsA with tags := [[9]] }

/-- Into that repository, with the snapshot that is there as the parent. -/
theorem okT : BackupOk codec Demo.cut pruneIds (clean repoA) (Check.opened repoA) (snapsOf repoA) argsT :=
  have h := C69.okA ⟨none, [], []⟩ (leftover_clean healthyA)
  ⟨h.chunker, h.healthy, h.leftover, h.opens, h.loaded, h.fits, h.few, h.sorted, h.faithful⟩

/-- Into an empty one. -/
theorem okE : BackupOk codec Demo.cut Demo.ids world0 src0 [] argsT where
  chunker := cut_contract
  healthy := healthy_empty codec Demo.ids
  leftover := leftover_clean (healthy_empty codec Demo.ids)
  opens := opens0
  loaded := by simp
  fits := okT.fits
  few := okT.few
  sorted := okT.sorted
  faithful := by intro p d0 h; cases h

def planT : Plan ObjectId :=
  planOf (backupPlan codec Demo.cut (clean repoA) (Check.opened repoA) (snapsOf repoA) argsT)
def planE : Plan ObjectId := planOf (backupPlan codec Demo.cut world0 src0 [] argsT)

/-- The snapshot of a backup that makes one. -/
def madeBy (p : Plan ObjectId) : Snapshot ObjectId :=
  match p.post with
  | .ok [.putSnap s] => s
  | _ => snapA

theorem madeBy_eq {p : Plan ObjectId} (h : (match p.post with | .ok [.putSnap _] => true | _ => false) = true) :
    p.post = .ok [.putSnap (madeBy p)] := by
  unfold madeBy
  split at h
  · rename_i s hs; rw [hs]
  · cases h

/-- The first sends nothing, the second two blobs. -/
example : BackupRuns codec Demo.cut pruneIds (clean repoA) (Check.opened repoA) (snapsOf repoA) argsT ∧
    BackupRuns codec Demo.cut Demo.ids world0 src0 [] argsT ∧
    (∀ p, parentSnapshot argsT.paths (snapsOf repoA) = some p → ∃ d, HoldsCut codec repoA Demo.cut p.tree d) ∧
    (∃ p, parentSnapshot argsT.paths (snapsOf repoA) = some p) ∧ CutAlike codec Demo.cut repoA ∧
    backupPlan codec Demo.cut (clean repoA) (Check.opened repoA) (snapsOf repoA) argsT = .ok planT ∧
    backupPlan codec Demo.cut world0 src0 [] argsT = .ok planE ∧
    planT.post = .ok [.putSnap (madeBy planT)] ∧ planE.post = .ok [.putSnap (madeBy planE)] ∧
    (sends planT.main).length = 0 ∧ (sends planE.main).length = 2 := by
  refine ⟨okT.runs, okE.runs, ?_, ⟨_, C69.parentA⟩, ?_, planOf_eq (by decide +kernel), planOf_eq (by decide +kernel),
    madeBy_eq (by decide +kernel), madeBy_eq (by decide +kernel), by decide +kernel, by decide +kernel⟩
  · intro p hp
    obtain rfl : snapA = p := Option.some.inj (C69.parentA.symm.trans hp)
    exact ⟨_, holdsCutA⟩
  · intro i s hs
    have : s = snapA := by
      have : (i, s) = (pruneIds.snapId snapA, snapA) := List.mem_singleton.mp hs
      exact congrArg Prod.snd this
    rw [this]
    exact ⟨_, holdsCutA⟩

/-- A backup that finishes. -/
example : BackupOk codec Demo.cut Demo.ids world0 src0 [] args0 ∧
    NoClash codec Demo.cut Demo.ids 4 world0 src0 [] args0 plan0 ∧ CutAlike codec Demo.cut world0.repo ∧
    backupPlan codec Demo.cut world0 src0 [] args0 = .ok plan0 ∧ plan0.post = .ok [.putSnap snap0] ∧
    ∃ w', Finished (C13.cfg Demo.ids 4 args0 plan0) world0 plan0.main plan0.posts w' := by
  refine ⟨backupOk0, noClash0, (fun i s h => by cases h), plan0_eq, post0, ?_⟩
  obtain ⟨t, ht, hj⟩ := C20.finishes world0 backupOk0 noClash0 rfl (Nat.le_refl 4)
    BMap.sorted_nil plan0_eq _ .refl
  exact ⟨_, .mk t ht hj⟩

/-- What the snapshot of `C31` holds. -/
def dirF : Dir Bytes :=
  .dir [97] dirMd (.leaf [120] (fileMd 1 5) (.file [7]) (.leaf [121] (fileMd 3 5) (.file [1, 2, 3]) .nil))
    (.dir [98] dirMd (.leaf [98] (fileMd 1 5) (.file [4]) .nil) (.leaf [99] (fileMd 2 5) (.file [9, 9]) .nil))

/-- Backing that up, and less `a/x`. -/
def argsD (filter : Path → Bool) : BackupArgs := { args0 with
  paths := [[[97]], [[98]], [[99]]], fs := dirF, pathOf := fun n => [n], filter := filter }

theorem holdsF : HoldsCut codec (C31.repoF junk) Demo.cut (C31.targetF junk).1.tree dirF :=
  ⟨_, Check.treeAt_sound (t := C31.rootOf junk) (by decide +kernel),
    .dir (Check.treeAt_sound (t := C31.treeXY) (by decide +kernel))
      (.file ⟨Check.fileAt_sound _ (by decide +kernel), by decide +kernel⟩
        (.file ⟨Check.fileAt_sound _ (by decide +kernel), by decide +kernel⟩ .nil))
      (.dir (Check.treeAt_sound (t := oneFile [98] chunkB) (by decide +kernel))
        (.file ⟨Check.fileAt_sound _ (by decide +kernel), by decide +kernel⟩ .nil)
        (.file ⟨Check.fileAt_sound _ (by decide +kernel), by decide +kernel⟩ .nil))⟩

theorem keepD : keep (argsD C31.noX).filter (argsD C31.noX).pathOf (argsD C31.noX).fs =
    .dir [97] dirMd (.leaf [121] (fileMd 3 5) (.file [1, 2, 3]) .nil)
      (.dir [98] dirMd (.leaf [98] (fileMd 1 5) (.file [4]) .nil) (.leaf [99] (fileMd 2 5) (.file [9, 9]) .nil)) := by
  decide +kernel

theorem okD : BackupOk codec Demo.cut Demo.ids world0 src0 [] (argsD C31.noX) where
  chunker := cut_contract
  healthy := healthy_empty codec Demo.ids
  leftover := leftover_clean (healthy_empty codec Demo.ids)
  opens := opens0
  loaded := by simp
  fits := by
    rw [keepD]
    exact ⟨by decide, okDirMd, by decide, ⟨by decide, okFileMd _ _ (by decide) (by decide), by simp [LeafFits], trivial⟩,
      by decide, okDirMd, by decide, ⟨by decide, okFileMd _ _ (by decide) (by decide), by simp [LeafFits], trivial⟩,
      by decide, okFileMd _ _ (by decide) (by decide), by simp [LeafFits], trivial⟩
  few := by decide +kernel
  sorted := ⟨⟨by decide, by decide, trivial⟩, ⟨by decide, trivial⟩, trivial⟩
  faithful := by intro p d0 h; cases h

def planD : Plan ObjectId := planOf (backupPlan codec Demo.cut world0 src0 [] (argsD C31.noX))

/-- Filtering the snapshot and backing up less what is left out. -/
example : FilterOk codec C31.ids1 (clean (C31.repoF junk)) (Check.opened (C31.repoF junk)) (C31.targetF junk) ∧
    HoldsCut codec (C31.repoF junk) Demo.cut (C31.targetF junk).1.tree
      (arrange (keep (argsD (fun _ => true)).filter (argsD (fun _ => true)).pathOf (argsD (fun _ => true)).fs)) ∧
    SubsSorted (argsD (fun _ => true)).fs ∧ (argsD (fun _ => true)).fs.names.Nodup ∧
    filterPlan codec (Check.opened (C31.repoF junk)) (C31.targetF junk) C31.noX C31.argsF = .ok (C31.planF junk) ∧
    (∃ sn, .putSnap sn ∈ (C31.planF junk).posts) ∧
    BackupRuns codec Demo.cut Demo.ids world0 src0 [] (argsD C31.noX) ∧
    backupPlan codec Demo.cut world0 src0 [] (argsD C31.noX) = .ok planD ∧
    planD.post = .ok [.putSnap (madeBy planD)] ∧
    ∀ n q, (argsD C31.noX).filter ((argsD (fun _ => true)).pathOf n ++ q) =
      ((argsD (fun _ => true)).filter ((argsD (fun _ => true)).pathOf n ++ q) && C31.noX (n :: q)) := by
  have hk : arrange (keep (argsD (fun _ => true)).filter (argsD (fun _ => true)).pathOf (argsD (fun _ => true)).fs) = dirF := by
    decide +kernel
  refine ⟨C31.filterOk_of C31.healthyJ C31.targetJ, hk ▸ holdsF, ⟨⟨by decide, by decide, trivial⟩, ⟨by decide, trivial⟩, trivial⟩,
    by decide +kernel, C31.planJ_eq, ?_, okD.runs, planOf_eq (by decide +kernel), madeBy_eq (by decide +kernel),
    fun n q => rfl⟩
  have h : (match (C31.planF junk).posts with | .putSnap _ :: _ => true | _ => false) = true := by decide +kernel
  split at h
  · rename_i sn _ hs
    exact ⟨sn, hs ▸ List.mem_cons_self⟩
  · cases h

/-- Copying two snapshots, less the file `b`. -/
example : CopyOk codec env pruneIds repoAB world0 (Check.opened repoAB) src0 (snapsOf repoAB) ∧
    copyPlan codec env world0 (Check.opened repoAB) src0 (snapsOf repoAB) C30.noB false = .ok C30.plan1 ∧
    (snapB, pruneIds.snapId snapB) ∈ snapsOf repoAB ∧
    HoldsCut codec repoAB Demo.cut snapB.tree (.leaf [98] (fileMd 1 5) (.file [4]) .nil) ∧
    keep C30.noB (fun n => [n]) (.leaf [98] (fileMd 1 5) (.file [4]) .nil) = .nil :=
  ⟨C30.copyOk_of healthyAB, C30.plan1_eq, by decide +kernel,
    ⟨_, Check.treeAt_sound (t := oneFile [98] chunkB) (by decide +kernel),
      .file ⟨Check.fileAt_sound _ (by decide +kernel), by decide +kernel⟩ .nil⟩, by decide +kernel⟩

/-! ## A parent that was cut otherwise -/

/-- The file of `repoA` in two pieces, as another chunker might have cut it. -/
def repoU : Repo ObjectId :=
  repoOf pruneIds [[blobOf .chunk [1], blobOf .chunk [2, 3]],
    [treeBlob [([97], ⟨.file [(blobOf .chunk [1]).id, (blobOf .chunk [2, 3]).id], fileMd 3 5⟩)]]]
    [snapOf (treeBlob [([97], ⟨.file [(blobOf .chunk [1]).id, (blobOf .chunk [2, 3]).id], fileMd 3 5⟩)]) 1]

def snapU : Snapshot ObjectId :=
  snapOf (treeBlob [([97], ⟨.file [(blobOf .chunk [1]).id, (blobOf .chunk [2, 3]).id], fileMd 3 5⟩)]) 1

theorem healthyU : Healthy codec pruneIds repoU := Check.healthy_sound (k := 2) (by decide +kernel)

theorem holdsU : Holds codec repoU snapU.tree
    (arrange (keep C69.argsA.filter C69.argsA.pathOf C69.argsA.fs)) := Check.dirAt_sound 3 (by decide +kernel)

theorem parentU : parentSnapshot argsT.paths (snapsOf repoU) = some snapU := by decide +kernel

theorem okU : BackupOk codec Demo.cut pruneIds (clean repoU) (Check.opened repoU) (snapsOf repoU) argsT where
  chunker := cut_contract
  healthy := healthyU
  leftover := leftover_clean healthyU
  opens := Check.opened_opens healthyU
  loaded := by
    have : ∀ s ∈ snapsOf repoU, (s.2, s.1) ∈ repoU.snapshots := by decide +kernel
    exact this
  fits := okT.fits
  few := okT.few
  sorted := okT.sorted
  faithful p d0 h hd := by
    obtain rfl : snapU = p := Option.some.inj (parentU.symm.trans h)
    have := holds_one healthyU.sound holdsU hd
    exact this ▸ C69.faithfulA

def planU : Plan ObjectId :=
  planOf (backupPlan codec Demo.cut (clean repoU) (Check.opened repoU) (snapsOf repoU) argsT)

/-- What is asked of the parent matters: a file that looks unmodified keeps the pieces it had, so in a
repository that was written with another chunker the same files have another tree. -/
theorem history_matters : ∃ (w w' : World ObjectId) (src src' : Source ObjectId) (snaps snaps' : List (Snap ObjectId))
    (a : BackupArgs) (plan plan' : Plan ObjectId) (sn sn' : Snapshot ObjectId),
    BackupOk codec Demo.cut pruneIds w src snaps a ∧ BackupOk codec Demo.cut Demo.ids w' src' snaps' a ∧
    backupPlan codec Demo.cut w src snaps a = .ok plan ∧ backupPlan codec Demo.cut w' src' snaps' a = .ok plan' ∧
    plan.post = .ok [.putSnap sn] ∧ plan'.post = .ok [.putSnap sn'] ∧ sn.tree ≠ sn'.tree :=
  ⟨_, _, _, _, _, _, _, planU, planE, madeBy planU, madeBy planE, okU, okE, planOf_eq (by decide +kernel),
    planOf_eq (by decide +kernel), madeBy_eq (by decide +kernel), madeBy_eq (by decide +kernel), by decide +kernel⟩

end Backpak.C96
