import Verif.Lemmas.ReadBack
import Verif.Lemmas.Finish
import Verif.Lemmas.DemoRun
import Verif.Props.C13

/-!
# C20 - What was backed up is what is in the snapshot

`Holds` is the relational account of what an ID stands for; `keep` drops the skipped paths and
unsupported file types and `arrange` puts the top-level entries in name order.
-/

namespace Backpak.C20

open Spec Pipeline

variable {Id : Type} [LinearOrder Id] {C : Codec Id} {cut : Bytes → Nat} {ids : Ids Id} {cores : Nat}
  {src : Source Id} {snaps : List (Snap Id)} {a : BackupArgs} {plan : Plan Id}

/-- A backup that finished with a new snapshot: it is in the repository, with the given author,
tags, paths and time, and stands for the file tree that was walked. -/
theorem snapshot_holds_partial (w w' : World Id) (hB : BackupOk C cut ids w src snaps a)
    (hN : NoClash C cut ids cores w src snaps a plan)
    (hp : backupPlan C cut w src snaps a = .ok plan) (sn : Snapshot Id)
    (hsn : plan.post = .ok [.putSnap sn])
    (h : Finished (C13.cfg ids cores a plan) w plan.main plan.posts w') :
    (ids.snapId sn, sn) ∈ w'.repo.snapshots ∧
    (sn.time = a.now ∧ sn.tz = a.tz ∧ sn.author = a.author ∧ sn.tags = a.tags ∧ sn.paths = a.paths) ∧
    Holds C w'.repo sn.tree (arrange (keep a.filter a.pathOf a.fs)) ∧ Healthy C ids w'.repo := by
  have hd : a.dryRun = false := by
    obtain ⟨F, known, here, root, L, _, _, _, _, _, _, hpost⟩ := plan_ok hp
    rw [hsn] at hpost
    rcases post_cases hpost.symm with h1 | ⟨h1, _⟩
    · cases h1
    · exact h1
  have hcfg : C13.cfg ids cores a plan = liveCfg ids cores plan.start := by
    simp [C13.cfg, liveCfg, hd]
  have hposts : plan.posts = [.putSnap sn] := by unfold Plan.posts; rw [hsn]
  have hh := C13.always_readable_partial (cores := cores) w w' hB (fun _ => hN) hp (by
    cases h with
    | mk s hs hj => exact .after s plan.posts [] hs hj (by simp))
  cases h with
  | mk s hs hj =>
    rw [hcfg] at hs
    obtain ⟨g1, _, _, _, g5⟩ := backup_run hB hN hp hd hs
    obtain ⟨root, sent, h1, h2⟩ := g5 hj
    rw [hsn] at h1
    rcases post_cases h1.symm with h3 | ⟨_, h3⟩
    · cases h3
    · cases h3
      refine ⟨?_, ⟨rfl, rfl, rfl, rfl, rfl⟩, ?_, hh⟩
      · rw [hposts]
        exact (BMap.mem_insert_iff g1.snapshots_sorted).mpr (.inl ⟨rfl, rfl⟩)
      · rw [hposts]
        exact holds_snaps h2

/-- Every earlier snapshot is still there when a backup has finished, and stands for what it stood
for, unless it is another snapshot with the ID of the new one. -/
theorem earlier_stay_partial (w w' : World Id) (hB : BackupOk C cut ids w src snaps a)
    (hN : NoClash C cut ids cores w src snaps a plan) (hd : a.dryRun = false)
    (hp : backupPlan C cut w src snaps a = .ok plan)
    (h : Finished (C13.cfg ids cores a plan) w plan.main plan.posts w') (i : Id) (sn : Snapshot Id)
    (hi : (i, sn) ∈ w.repo.snapshots)
    (hnew : ∀ new, plan.post = .ok [.putSnap new] → ids.snapId new = i → new = sn) :
    (i, sn) ∈ w'.repo.snapshots ∧ ∀ d, Holds C w.repo sn.tree d → Holds C w'.repo sn.tree d := by
  have hcfg : C13.cfg ids cores a plan = liveCfg ids cores plan.start := by
    simp [C13.cfg, liveCfg, hd]
  cases h with
  | mk s hs hj =>
    rw [hcfg] at hs
    obtain ⟨g1, _, g3, g4, g5⟩ := backup_run hB hN hp hd hs
    obtain ⟨root, sent, h1, _⟩ := g5 hj
    have hcase : plan.posts = [] ∨ ∃ new, plan.post = .ok [.putSnap new] ∧ plan.posts = [.putSnap new] := by
      cases hpo : plan.post with
      | error e => left; unfold Plan.posts; rw [hpo]
      | ok l =>
        rw [hpo] at h1
        have hl : plan.posts = l := by unfold Plan.posts; rw [hpo]
        rcases post_cases h1.symm with h3 | ⟨_, h3⟩
        · exact .inl (hl.trans h3)
        · exact .inr ⟨_, by rw [h3], hl.trans h3⟩
    rcases hcase with hpo | ⟨new, hpost, hpo⟩
    · rw [hpo]
      simp only [List.foldl_nil]
      exact ⟨by rw [g3]; exact hi, fun d hd => has_mono_holds g4 hd⟩
    · rw [hpo]
      refine ⟨?_, fun d hd => holds_snaps (has_mono_holds g4 hd)⟩
      simp only [List.foldl_cons, List.foldl_nil]
      by_cases he : ids.snapId new = i
      · refine (BMap.mem_insert_iff g1.snapshots_sorted).mpr (.inl ⟨?_, ?_⟩)
        · exact he.symm
        · exact (hnew new hpost he).symm
      · refine (BMap.mem_insert_iff g1.snapshots_sorted).mpr (.inr ⟨fun e => he e.symm, ?_⟩)
        rw [g3]; exact hi

/-- Reading it back, through any opened copy of the repository: its trees load, and going through
them gives the walked file tree, reading each file's chunks giving the file's bytes. -/
theorem reads_back_partial (w w' : World Id) (hB : BackupOk C cut ids w src snaps a)
    (hN : NoClash C cut ids cores w src snaps a plan)
    (hp : backupPlan C cut w src snaps a = .ok plan) (sn : Snapshot Id)
    (hsn : plan.post = .ok [.putSnap sn])
    (h : Finished (C13.cfg ids cores a plan) w plan.main plan.posts w')
    (src' : Source Id) (ho : Opens w'.repo src') :
    ∃ F cache t, forestFromRoot C src' sn.tree (newTreeCache C) = .ok (F, cache) ∧
      F.get? sn.tree = some t ∧
      DirRel (ReadsTo C w'.repo src') (fun id t => F.get? id = some t) t
        (arrange (keep a.filter a.pathOf a.fs)) := by
  obtain ⟨_, _, h1, h2⟩ := snapshot_holds_partial w w' hB hN hp sn hsn h
  obtain ⟨F, cache, hF, t, ht, hd⟩ := holds_forest h2.sound ho h1 newTreeCache_ok
  exact ⟨F, cache, t, hF, ht, hd.mono (fun _ _ hf => file_reads h2.sound ho hf) (fun _ _ e => e)⟩

/-- A repository as the backup leaves it can be opened. -/
theorem can_open (R : Repo Id) (h : Healthy C ids R) : ∃ src, Opens R src := opens_exists h.sound

theorem putAll_nil (d : Dir Bytes) : ∀ acc : Dir Bytes, putAll acc d = .nil → acc = .nil ∧ d = .nil := by
  have h1 : ∀ n md l (acc : Dir Bytes), acc.putLeaf n md l ≠ .nil := by
    intro n md l acc
    cases acc <;> simp only [Dir.putLeaf]
    · simp
    · split
      · simp
      · split <;> simp
    · split
      · simp
      · split <;> simp
  have h2 : ∀ n md s (acc : Dir Bytes), Dir.putDir n md s acc ≠ .nil := by
    intro n md l acc
    cases acc <;> simp only [Dir.putDir]
    · simp
    · split
      · simp
      · split <;> simp
    · split
      · simp
      · split <;> simp
  induction d with
  | nil => exact fun acc h => ⟨h, rfl⟩
  | leaf n md l r ih => exact fun acc h => absurd (ih _ h).1 (h1 _ _ _ _)
  | dir n md s r _ ih => exact fun acc h => absurd (ih _ h).1 (h2 _ _ _ _)

/-- When a backup that is not a dry run finishes, either there is a new snapshot, or nothing was
kept and `--allow-empty` was not given, or the latest snapshot had the same author, tags and
paths and stands for the same file tree. -/
theorem makes_snapshot_partial (w w' : World Id) (hB : BackupOk C cut ids w src snaps a)
    (hN : NoClash C cut ids cores w src snaps a plan) (hd : a.dryRun = false)
    (hp : backupPlan C cut w src snaps a = .ok plan)
    (h : Finished (C13.cfg ids cores a plan) w plan.main plan.posts w') :
    (∃ sn, plan.post = .ok [.putSnap sn]) ∨
    (keep a.filter a.pathOf a.fs = .nil ∧ a.allowEmpty = false) ∨
    (∃ sn i, snaps.getLast? = some (sn, i) ∧ sn.author = a.author ∧ sn.tags = a.tags ∧
      sn.paths = a.paths ∧ Holds C w.repo sn.tree (arrange (keep a.filter a.pathOf a.fs))) := by
  have hcfg : C13.cfg ids cores a plan = liveCfg ids cores plan.start := by
    simp [C13.cfg, liveCfg, hd]
  cases h with
  | mk s hs hj =>
    rw [hcfg] at hs
    obtain ⟨g1, _, _, g4, g5⟩ := backup_run hB hN hp hd hs
    obtain ⟨root, sent, h1, h2⟩ := g5 hj
    rw [h1]
    unfold backupPost
    simp only
    split
    · rename_i hc
      refine .inr (.inl ⟨?_, hc.2⟩)
      obtain ⟨t, ht, hdir⟩ := h2
      rw [hc.1] at ht
      have := g1.sound.treeAt_one ht treeAt_nil
      subst this
      have harr : ∀ d, DirHolds C s.world.repo [] d → d = .nil := fun d h => by cases h; rfl
      exact (putAll_nil _ _ (harr _ hdir)).2
    · split
      · rename_i hc
        refine .inr (.inr ?_)
        cases hl : snaps.getLast? with
        | none => rw [hl] at hc; cases hc
        | some v =>
          obtain ⟨sn, i⟩ := v
          rw [hl] at hc
          simp only [Option.map_some, Option.some.injEq] at hc
          obtain ⟨t, z, au, tg, pa, tr⟩ := sn
          simp only [Snapshot.mk.injEq] at hc
          obtain ⟨_, _, rfl, rfl, rfl, rfl⟩ := hc
          refine ⟨_, i, rfl, rfl, rfl, rfl, ?_⟩
          obtain ⟨d, hr⟩ := hB.healthy.readable i _ (hB.loaded _ (List.mem_of_getLast? hl))
          have := holds_one g1.sound (has_mono_holds g4 hr) h2
          rwa [this] at hr
      · rw [hd]
        exact .inl ⟨_, rfl⟩

/-- With four cores or more, a backup that is not a dry run can always finish, from wherever it
has got to. (`C16.runs_end`: no schedule goes on for ever.) -/
theorem finishes (w : World Id) (hB : BackupOk C cut ids w src snaps a)
    (hN : NoClash C cut ids cores w src snaps a plan) (hd : a.dryRun = false) (hcores : 4 ≤ cores)
    (hw : BMap.Sorted w.cwd.packs) (hp : backupPlan C cut w src snaps a = .ok plan)
    (s : State Id) (h : Reachable (C13.cfg ids cores a plan) w plan.main s) :
    ∃ t, Relation.ReflTransGen (Step (C13.cfg ids cores a plan)) s t ∧ t.joined = true := by
  obtain ⟨F, known, here, root, L, hF, hk, hr, hb, hoff, hm, hpost⟩ := plan_ok hp
  have hcfg : C13.cfg ids cores a plan = liveCfg ids cores plan.start := by
    simp [C13.cfg, liveCfg, hd]
  have hu := hN.blobs
  rw [hoff] at hu
  obtain ⟨hfresh, hall⟩ := offer_fresh hB.leftover
    (packed_iff hB.healthy.sound hB.leftover hB.opens hk hr) (offered_made hB.runs hF hb) hu
  have hmain : plan.main = mainOf here
      (L.foldl offer ⟨BMap.keys known ++ listedIds plan.start, []⟩).sent := by
    rw [hm, hd]; rfl
  have hpk := hN.packs
  rw [hcfg, hmain] at h
  rw [hmain] at hpk
  rw [hcfg]
  exact add_finishes hcores hB.healthy hB.leftover hw hr hfresh hpk h

/-- A backup that leaves out a link: it finishes, and its snapshot holds the rest. -/
example : ∃ w', Finished (C13.cfg Demo.ids 4 Demo.args0 Demo.plan0) Demo.world0 Demo.plan0.main
      Demo.plan0.posts w' ∧
    (Demo.ids.snapId Demo.snap0, Demo.snap0) ∈ w'.repo.snapshots ∧
    Holds Demo.codec w'.repo Demo.snap0.tree
      (.leaf [97] (Demo.fileMd 3 5) (.file [1, 2, 3]) <|
       .leaf [98] (Demo.fileMd 3 6) (.file [1, 2, 3]) <|
       .dir [115] Demo.dirMd
        (.leaf [99] (Demo.fileMd 1 7) (.file [4]) <| .dir [101] Demo.dirMd .nil .nil) .nil) := by
  obtain ⟨t, ht, hj⟩ := finishes Demo.world0 Demo.backupOk0 Demo.noClash0 rfl (Nat.le_refl 4)
    BMap.sorted_nil Demo.plan0_eq _ .refl
  have hf := Finished.mk (post := Demo.plan0.posts) t ht hj
  have := snapshot_holds_partial Demo.world0 _ Demo.backupOk0 Demo.noClash0 Demo.plan0_eq Demo.snap0
    Demo.post0 hf
  exact ⟨_, hf, this.1, this.2.2.1⟩

/-! ## A chunk that looks like a tree

Blobs are told apart by ID alone, and a chunk's ID is the hash of its bytes as a tree's is of its
encoding. So a file holding the encoding of a directory that is backed up with it takes that
directory's place. -/

/-- A directory with one link in it. -/
def likeTree : Tree ObjectId := [([108], ⟨.link [97], Demo.linkMd⟩)]

/-- It, and before it a file with its encoding. -/
def likeFs : Dir Bytes :=
  .leaf [97] (Demo.fileMd 80 5) (.file (Demo.codec.encTree likeTree)) <|
  .dir [100] Demo.dirMd (.leaf [108] Demo.linkMd (.link [97]) .nil) .nil

/-- A backup of both. -/
def likeArgs : BackupArgs := { Demo.args0 with fs := likeFs }

def likePlan : Plan ObjectId :=
  Demo.planOf (backupPlan Demo.codec Demo.cut Demo.world0 Demo.src0 [] likeArgs)

theorem likePlan_eq : backupPlan Demo.codec Demo.cut Demo.world0 Demo.src0 [] likeArgs = .ok likePlan :=
  Demo.planOf_eq (by decide +kernel)

theorem like_ok : BackupOk Demo.codec Demo.cut Demo.ids Demo.world0 Demo.src0 [] likeArgs where
  chunker := Demo.cut_contract
  healthy := Demo.healthy_empty Demo.codec Demo.ids
  leftover := Demo.leftover_clean (Demo.healthy_empty Demo.codec Demo.ids)
  opens := Demo.opens0
  loaded := by simp
  fits := ⟨by decide, Demo.okFileMd _ _ (by decide) (by decide), by
      show (Demo.codec.encTree likeTree).length < 2 ^ 64
      have : (Demo.codec.encTree likeTree).length < 1000 := by decide +kernel
      omega,
    by decide, Demo.okDirMd, by decide, ⟨by decide, Demo.okLinkMd, by simp [LeafFits], trivial⟩, trivial⟩
  few := by decide
  sorted := ⟨⟨by decide, trivial⟩, trivial⟩
  faithful := by intro p d0 h; cases h

def likeSnap : Snapshot ObjectId :=
  match likePlan.post with
  | .ok [.putSnap s] => s
  | _ => ⟨0, [], [], [], [], Demo.codec.emptyId⟩

theorem like_post : likePlan.post = .ok [.putSnap likeSnap] := by
  have h : (match likePlan.post with | .ok [.putSnap _] => true | _ => false) = true := by
    decide +kernel
  unfold likeSnap
  split at h
  · rename_i s hs
    rw [hs]
  · cases h

theorem like_packs : PacksDiffer Demo.ids Demo.world0 likePlan.main := by
  have key : ∀ a ∈ Demo.packsOf likePlan.main, ∀ b ∈ Demo.packsOf likePlan.main,
      Demo.ids.packId (Pack.manifestOf a) = Demo.ids.packId (Pack.manifestOf b) → a = b := by
    decide +kernel
  have hm : ∀ a, Involved Demo.world0 likePlan.main a → a ∈ Demo.packsOf likePlan.main := by
    rintro a (⟨p, h⟩ | ⟨p, h⟩ | h)
    · cases h
    · cases h
    · exact Demo.formed_mem h
  exact fun a b ha hb => key a (hm a ha) b (hm b hb)

theorem like_indexes : IndexOk (liveCfg Demo.ids 4 likePlan.start) Demo.world0.repo (sends likePlan.main) := by
  intro x _
  exact ⟨(by rintro ⟨j, y, h, _⟩; cases h), (by intro y h; cases h), by
    show _ ∉ likePlan.start.supersedes
    rw [show likePlan.start.supersedes = [] by decide +kernel]; simp⟩

theorem like_no_counts {w : World ObjectId} (h : w = Demo.world0) {p : ObjectId} {bs : Pack ObjectId} :
    ¬ Counts w p bs := by
  subst h
  rintro (⟨⟨i, x, ⟨h, _⟩, _⟩, _⟩ | ⟨x, h, _⟩) <;> cases h

theorem like_fresh : Fresh Demo.codec (Counts Demo.world0) (sends likePlan.main) := by
  obtain ⟨F, known, here, root, L, hF, hk, hr, hb, hoff, hm, hpost⟩ := plan_ok likePlan_eq
  have hL : ∀ b ∈ sends likePlan.main, b ∈ L := by
    have h0 : likePlan.main = mainOf here
        (L.foldl offer ⟨BMap.keys known ++ listedIds likePlan.start, []⟩).sent := by
      rw [hm]; rfl
    rw [h0, sends_mainOf]
    obtain ⟨new, h1, h2, _⟩ := offer_all L ⟨BMap.keys known ++ listedIds likePlan.start, []⟩
    rw [h1]
    exact fun b hb => h2.subset hb
  have hW : ∀ b ∈ sends likePlan.main, WellMade Demo.codec b :=
    fun b hb' => offered_made like_ok.runs hF hb b (hL b hb')
  refine ⟨by decide +kernel, fun b _ p cs h => absurd h (like_no_counts rfl), fun b hb => (hW b hb).ne,
    fun b hb => (hW b hb).hash, fun b hb hk => ?_⟩
  obtain ⟨t, h1, h2⟩ := (hW b hb).tree hk
  refine ⟨t, h1, h2, fun he => absurd he ?_⟩
  have : ∀ b ∈ sends likePlan.main, b.id ≠ Demo.codec.emptyId := by decide +kernel
  exact this b hb

/-- The root of the snapshot. -/
def likeRoot : Tree ObjectId :=
  [([97], ⟨.file [Demo.hash (Demo.codec.encTree likeTree)], Demo.fileMd 80 5⟩),
   ([100], ⟨.dir (Demo.hash (Demo.codec.encTree likeTree)), Demo.dirMd⟩)]

theorem like_root_ne : Demo.codec.hash (Demo.codec.encTree []) ≠ likeSnap.tree := by decide +kernel

theorem like_id_ne : Demo.codec.hash (Demo.codec.encTree []) ≠ Demo.hash (Demo.codec.encTree likeTree) := by
  decide +kernel

theorem like_root_dec : Demo.codec.decTree (Demo.codec.encTree likeRoot) = some (likeRoot, []) := by
  decide +kernel

theorem like_trees : ∀ b ∈ sends likePlan.main, b.kind = .tree → b.data = Demo.codec.encTree likeRoot := by
  decide +kernel

theorem like_absent : ∀ b ∈ sends likePlan.main, b.kind = .tree →
    b.id = Demo.hash (Demo.codec.encTree likeTree) → False := by
  decide +kernel

/-- Without any hash collision, a backup can finish with a snapshot that cannot be read. Only the
second part of `Unmixed` fails. -/
theorem chunk_like_tree :
    BackupOk Demo.codec Demo.cut Demo.ids Demo.world0 Demo.src0 [] likeArgs ∧
    backupPlan Demo.codec Demo.cut Demo.world0 Demo.src0 [] likeArgs = .ok likePlan ∧
    (∀ b b', (Stored Demo.world0 b ∨ b ∈ offered Demo.codec Demo.cut Demo.src0 [] likeArgs ∨
        b = emptyBlob Demo.codec) →
      (Stored Demo.world0 b' ∨ b' ∈ offered Demo.codec Demo.cut Demo.src0 [] likeArgs ∨
        b' = emptyBlob Demo.codec) →
      Demo.hash b.data = Demo.hash b'.data → b.data = b'.data) ∧
    PacksDiffer Demo.ids Demo.world0 likePlan.main ∧
    IndexOk (liveCfg Demo.ids 4 likePlan.start) Demo.world0.repo (sends likePlan.main) ∧
    (∃ w', Finished (C13.cfg Demo.ids 4 likeArgs likePlan) Demo.world0 likePlan.main likePlan.posts w') ∧
    ∀ w', Finished (C13.cfg Demo.ids 4 likeArgs likePlan) Demo.world0 likePlan.main likePlan.posts w' →
      (Demo.ids.snapId likeSnap, likeSnap) ∈ w'.repo.snapshots ∧ ¬ Readable Demo.codec w'.repo likeSnap := by
  have hcfg : C13.cfg Demo.ids 4 likeArgs likePlan = liveCfg Demo.ids 4 likePlan.start := rfl
  have hposts : likePlan.posts = [.putSnap likeSnap] := by unfold Plan.posts; rw [like_post]
  have hmain : likePlan.main = mainOf [] (sends likePlan.main) := by
    obtain ⟨F, known, here, root, L, hF, hk, hr, hb, hoff, hm, hpost⟩ := plan_ok likePlan_eq
    have hh : here = [] := by
      rcases resumeFrom_ok hr with ⟨_, _, h⟩ | ⟨h, _⟩
      · exact h
      · cases h
    subst hh
    have h0 : likePlan.main = mainOf []
        (L.foldl offer ⟨BMap.keys known ++ listedIds likePlan.start, []⟩).sent := by
      rw [hm]; rfl
    rw [h0, sends_mainOf]
  have hres : resumeFrom Demo.world0 = .ok (likePlan.start, []) := by
    obtain ⟨F, known, here, root, L, hF, hk, hr, _⟩ := plan_ok likePlan_eq
    rcases resumeFrom_ok hr with ⟨_, h2, h3⟩ | ⟨h, _⟩
    · rw [hr, h3]
    · cases h
  have hstart : likePlan.start = Index.empty := by
    rcases resumeFrom_ok hres with ⟨_, h2, h3⟩ | ⟨h, _⟩
    · exact h2
    · cases h
  refine ⟨like_ok, likePlan_eq, ?_, like_packs, like_indexes, ?_, ?_⟩
  · have hs : ∀ b, ¬ Stored Demo.world0 b := fun b ⟨p, bs, h, _⟩ => like_no_counts rfl h
    have key : ∀ b ∈ emptyBlob Demo.codec :: offered Demo.codec Demo.cut Demo.src0 [] likeArgs,
        ∀ b' ∈ emptyBlob Demo.codec :: offered Demo.codec Demo.cut Demo.src0 [] likeArgs,
        Demo.hash b.data = Demo.hash b'.data → b.data = b'.data := by
      decide +kernel
    have hm : ∀ b, (Stored Demo.world0 b ∨ b ∈ offered Demo.codec Demo.cut Demo.src0 [] likeArgs ∨
        b = emptyBlob Demo.codec) →
        b ∈ emptyBlob Demo.codec :: offered Demo.codec Demo.cut Demo.src0 [] likeArgs := by
      rintro b (h | h | rfl)
      · exact absurd h (hs b)
      · exact List.mem_cons_of_mem _ h
      · exact List.mem_cons_self
    exact fun b b' h h' => key b (hm b h) b' (hm b' h')
  · have hpk := like_packs
    rw [hmain] at hpk
    obtain ⟨t, ht, hj⟩ := add_finishes (cores := 4) (Nat.le_refl 4) like_ok.healthy like_ok.leftover
      BMap.sorted_nil hres like_fresh hpk .refl
    exact ⟨_, .mk t (by rw [hcfg, hmain]; exact ht) hj⟩
  · intro w' h
    cases h with
    | mk s hs hj =>
      rw [hposts]
      rw [hcfg, hmain] at hs
      have hpk := like_packs
      rw [hmain] at hpk
      have hr := runOk_add (cores := 4) like_ok.healthy.sound like_ok.healthy.pack_names like_ok.leftover hres like_fresh hpk
      have h' := reachable_allowed (c := liveCfg Demo.ids 4 likePlan.start)
        (c' := ⟨Demo.ids, true, 4, likePlan.start, Involved Demo.world0 (mainOf [] (sends likePlan.main))⟩)
        rfl rfl rfl rfl (fun cur hc => .inr (.inr hc)) hs
      have hsn := (effect hr h').snaps
      refine ⟨?_, ?_⟩
      · show _ ∈ BMap.insert _ _ s.world.repo.snapshots
        rw [hsn]
        exact (BMap.mem_insert_iff BMap.sorted_nil).mpr (.inl ⟨rfl, rfl⟩)
      · rintro ⟨d, t, ⟨ht1, ht2, ht3⟩, hd⟩
        have hroot : Demo.codec.hash (Demo.codec.encTree t) = likeSnap.tree := ht2
        have only : ∀ {b}, Has Demo.codec s.world.repo b →
            b ∈ sends likePlan.main := by
          intro b hb
          rcases has_after hr (by rw [hstart]; intro i hi; cases hi) (by
            intro x _
            exact ⟨(by rintro ⟨j, y, h, _⟩; cases h), (by intro y h; cases h), by rw [hstart]; simp [Index.empty]⟩)
            h' hb with
            ⟨p, m, ⟨i, x, ⟨h, _⟩, _⟩ | h, _⟩ | h
          · cases h
          · rw [hstart] at h; cases h
          · rwa [sends_mainOf] at h
        have ht : t = likeRoot := by
          rcases ht3 with rfl | hh
          · exact absurd hroot like_root_ne
          · have h1 := like_trees _ (only hh) rfl
            have h2 := Demo.codec.dec_enc t ht1
            simp only at h1
            rw [h1, like_root_dec] at h2
            cases h2
            rfl
        subst ht
        cases hd with
        | file _ hd =>
          cases hd with
          | dir h0 _ _ =>
            obtain ⟨_, h1, rfl | h2⟩ := h0
            · exact like_id_ne h1
            · exact like_absent _ (only h2) rfl rfl

end Backpak.C20
