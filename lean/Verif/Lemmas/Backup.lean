import Verif.Lemmas.Offer
import Verif.Lemmas.WalkBlobs
import Verif.Props.C23

/-!
# A whole backup
-/

namespace Backpak

open Spec Pipeline

variable {Id : Type} [LinearOrder Id]

/-- What a backup may take for granted: a chunker as documented; a repository in good order and
whatever an interrupted backup left in the working directory; the index and snapshots loaded from
it; a file tree whose sizes fit in 64 bits and whose directories list each name once; and that
files which look unmodified since the parent snapshot are. -/
structure BackupOk (C : Codec Id) (cut : Bytes → Nat) (ids : Ids Id) (w : World Id) (src : Source Id)
    (snaps : List (Snap Id)) (a : BackupArgs) : Prop where
  chunker : Chunk.Contract cut
  healthy : Healthy C ids w.repo
  leftover : Leftover C ids w
  opens : Opens w.repo src
  loaded : ∀ s ∈ snaps, (s.2, s.1) ∈ w.repo.snapshots
  fits : Fits (keep a.filter a.pathOf a.fs)
  few : (keep a.filter a.pathOf a.fs).names.length < 2 ^ 64
  sorted : SubsSorted a.fs
  faithful : ∀ p d0, parentSnapshot a.paths snaps = some p → Holds C w.repo p.tree d0 →
    Faithful d0 (keep a.filter a.pathOf a.fs)

/-- The part of that which a backup needs to run: there may be snapshots that cannot be read, if the
parent is none of them. -/
structure BackupRuns (C : Codec Id) (cut : Bytes → Nat) (ids : Ids Id) (w : World Id) (src : Source Id)
    (snaps : List (Snap Id)) (a : BackupArgs) : Prop where
  chunker : Chunk.Contract cut
  sound : Sound C w.repo
  names : ∀ p bs, (p, bs) ∈ w.repo.packs → p = ids.packId (Pack.manifestOf bs)
  leftover : Leftover C ids w
  opens : Opens w.repo src
  readable : ∀ p, parentSnapshot a.paths snaps = some p → Readable C w.repo p
  fits : Fits (keep a.filter a.pathOf a.fs)
  few : (keep a.filter a.pathOf a.fs).names.length < 2 ^ 64
  sorted : SubsSorted a.fs
  faithful : ∀ p d0, parentSnapshot a.paths snaps = some p → Holds C w.repo p.tree d0 →
    Faithful d0 (keep a.filter a.pathOf a.fs)

/-- All blobs of a backup, those already stored included. -/
def offered (C : Codec Id) (cut : Bytes → Nat) (src : Source Id) (snaps : List (Snap Id))
    (a : BackupArgs) : List (Blob Id) :=
  match parentForest C src (parentSnapshot a.paths snaps) with
  | .error _ => []
  | .ok F =>
    match backupBlobs C cut a.filter F a.pathOf ((parentSnapshot a.paths snaps).map (·.tree)) a.fs with
    | .error _ => []
    | .ok (_, L) => L

/-- No two blobs, packs or indexes that take part have one ID, and the new index does not have the
ID of one that was superseded. (The last can fail without any hash collision: see `C27`.) -/
structure NoClash (C : Codec Id) (cut : Bytes → Nat) (ids : Ids Id) (cores : Nat) (w : World Id)
    (src : Source Id) (snaps : List (Snap Id)) (a : BackupArgs) (plan : Plan Id) : Prop where
  blobs : Unmixed C (fun b => Stored w b ∨ b ∈ offered C cut src snaps a)
  packs : PacksDiffer ids w plan.main
  indexes : IndexOk (liveCfg ids cores plan.start) w.repo (sends plan.main)

variable {C : Codec Id} {cut : Bytes → Nat} {ids : Ids Id} {cores : Nat} {w : World Id}
  {src : Source Id} {snaps : List (Snap Id)} {a : BackupArgs} {plan : Plan Id}

/-- What is behind a plan. -/
theorem plan_ok (h : backupPlan C cut w src snaps a = .ok plan) :
    ∃ (F : Forest Id) (known : BMap Id Unit) (here : List Id) (root : Id) (L : List (Blob Id)),
      parentForest C src (parentSnapshot a.paths snaps) = .ok F ∧
      Index.blobIds src.index = .ok known ∧ resumeFrom w = .ok (plan.start, here) ∧
      backupBlobs C cut a.filter F a.pathOf ((parentSnapshot a.paths snaps).map (·.tree)) a.fs = .ok (root, L) ∧
      offered C cut src snaps a = L ∧
      plan.main = (if a.dryRun then [] else here.map Op.up) ++
        (L.foldl offer ⟨BMap.keys known ++ listedIds plan.start, []⟩).sent.map Op.send ∧
      plan.post = backupPost C a snaps plan.start
        (L.foldl offer ⟨BMap.keys known ++ listedIds plan.start, []⟩).sent root := by
  unfold backupPlan at h
  simp only at h
  split at h
  · cases h
  · rename_i F hF
    split at h
    · cases h
    · rename_i known hk
      split at h
      · cases h
      · rename_i start here hr
        rw [backupTree_eq] at h
        cases hb : backupBlobs C cut a.filter F a.pathOf ((parentSnapshot a.paths snaps).map (·.tree)) a.fs with
        | error e => rw [hb] at h; cases h
        | ok r =>
          rw [hb] at h
          cases h
          refine ⟨F, known, here, r.1, r.2, hF, hk, hr, hb, ?_, rfl, rfl⟩
          unfold offered
          rw [hF]
          simp only
          rw [hb]

omit [LinearOrder Id] in
theorem parent_mem {p : Snapshot Id} (h : parentSnapshot a.paths snaps = some p) :
    ∃ i, (p, i) ∈ snaps := by
  unfold parentSnapshot at h
  obtain ⟨s, h1, rfl⟩ := Option.map_eq_some_iff.mp h
  exact ⟨s.2, List.mem_reverse.mp (List.mem_of_find?_eq_some h1)⟩

theorem BackupOk.runs (h : BackupOk C cut ids w src snaps a) : BackupRuns C cut ids w src snaps a where
  chunker := h.chunker
  sound := h.healthy.sound
  names := h.healthy.pack_names
  leftover := h.leftover
  opens := h.opens
  readable p hp := by
    obtain ⟨i, hi⟩ := parent_mem hp
    exact h.healthy.readable i p (h.loaded _ hi)
  fits := h.fits
  few := h.few
  sorted := h.sorted
  faithful := h.faithful

/-- Files taken over from the parent are as they were. -/
theorem parent_reuse (hB : BackupRuns C cut ids w src snaps a) {F : Forest Id}
    (hF : parentForest C src (parentSnapshot a.paths snaps) = .ok F) :
    Reuse (fun cs x => FileHolds C w.repo cs x ∧ cs.length < 2 ^ 64) F
      (((parentSnapshot a.paths snaps).map (·.tree)).bind (fun id => F.get? id))
      (keep a.filter a.pathOf a.fs) := by
  cases hp : parentSnapshot a.paths snaps with
  | none => exact reuse_none _ _ _
  | some p =>
    rw [hp] at hF
    unfold parentForest at hF
    simp only at hF
    cases hf : forestFromRoot C src p.tree (newTreeCache C) with
    | error e => rw [hf] at hF; cases hF
    | ok r =>
      rw [hf] at hF
      obtain ⟨f, cache⟩ := r
      have hF : f = F := by cases hF; rfl
      subst hF
      have hex := C23.forest_exact hB.sound hB.opens p.tree (newTreeCache C) f cache
        newTreeCache_ok hf
      obtain ⟨d0, t0, ht0, hd0⟩ := hB.readable p hp
      refine reuse_of_faithful _ _ d0 ?_ (hB.faithful p d0 hp ⟨t0, ht0, hd0⟩)
      intro t ht
      simp only [Option.map_some, Option.bind_some] at ht
      have : t = t0 := hB.sound.treeAt_one ((hex _ _).mp ht).2 ht0
      subst this
      exact rel_in_forest (fun id t h1 h2 => (hex id t).mpr ⟨h1, h2⟩)
        (holds_bounded hd0 (fun n x hx => ht0.1.contents _ hx))
        (fun x hx => reaches_sub .refl ht0 hx)

theorem offered_made (hB : BackupRuns C cut ids w src snaps a) {F : Forest Id} {root : Id}
    {L : List (Blob Id)} (hF : parentForest C src (parentSnapshot a.paths snaps) = .ok F)
    (hb : backupBlobs C cut a.filter F a.pathOf ((parentSnapshot a.paths snaps).map (·.tree)) a.fs =
      .ok (root, L)) : ∀ b ∈ L, WellMade C b := by
  intro b hm
  have := backup_blobs hB.chunker hB.fits hB.few hB.sorted
    ((parent_reuse hB hF).mono (fun _ _ h => ⟨trivial, h.2⟩)) hb b hm
  refine ⟨this.ne hB.chunker, this.hash hB.chunker, fun hk => ?_⟩
  obtain ⟨t, h1, _, h2⟩ := this.tree_of hB.chunker hk
  exact ⟨t, h1, h2⟩

/-- With every blob found, the root stands for the file tree. -/
theorem root_holds (hB : BackupRuns C cut ids w src snaps a) {F : Forest Id} {root : Id}
    {L : List (Blob Id)} (hF : parentForest C src (parentSnapshot a.paths snaps) = .ok F)
    (hb : backupBlobs C cut a.filter F a.pathOf ((parentSnapshot a.paths snaps).map (·.tree)) a.fs =
      .ok (root, L)) {R : Repo Id} (hold : ∀ b, Has C w.repo b → Has C R b)
    (hall : ∀ b ∈ L, Has C R b) : Holds C R root (arrange (keep a.filter a.pathOf a.fs)) := by
  obtain ⟨t, h1, rfl, h3, h4⟩ := backup_rel (PF := FileHolds C R) (PT := TreeAt C R) hB.chunker
    (by
      intro x hx
      have := file_holds (C := C) (R := R) (Chunk.chunkFile C.hash cut x) (fun b hb =>
        ⟨hall b (hx b hb), (C10.chunk_bounds _ cut hB.chunker x b hb).2.2.2⟩)
      rwa [C10.chunks_concat _ cut hB.chunker] at this)
    (fun t ht hm => ⟨ht, rfl, hm.imp (fun e => e) (hall _)⟩)
    hB.fits hB.few hB.sorted
    ((parent_reuse hB hF).mono (fun _ _ h => ⟨has_mono_file hold h.1, h.2⟩)) hb
  exact ⟨t, ⟨h1, rfl, h3.imp (fun e => e) (hall _)⟩, h4⟩

/-- What a backup that is not a dry run does up to the operations after the join. -/
theorem backup_run (hB : BackupOk C cut ids w src snaps a)
    (hN : NoClash C cut ids cores w src snaps a plan)
    (hp : backupPlan C cut w src snaps a = .ok plan) (hlive : a.dryRun = false)
    {s : State Id} (h : Reachable (liveCfg ids cores plan.start) w plan.main s) :
    Healthy C ids s.world.repo ∧ Leftover C ids s.world ∧ s.world.repo.snapshots = w.repo.snapshots ∧
    (∀ b, Has C w.repo b → Has C s.world.repo b) ∧
    (s.joined = true → ∃ root sent, plan.post = backupPost C a snaps plan.start sent root ∧
      Holds C s.world.repo root (arrange (keep a.filter a.pathOf a.fs))) := by
  obtain ⟨F, known, here, root, L, hF, hk, hr, hb, hoff, hm, hpost⟩ := plan_ok hp
  have hu := hN.blobs
  rw [hoff] at hu
  obtain ⟨hfresh, hall⟩ := offer_fresh hB.leftover
    (packed_iff hB.healthy.sound hB.leftover hB.opens hk hr) (offered_made hB.runs hF hb) hu
  have hmain : plan.main = mainOf here
      (L.foldl offer ⟨BMap.keys known ++ listedIds plan.start, []⟩).sent := by
    rw [hm, hlive]; rfl
  have hpk := hN.packs
  have hix := hN.indexes
  rw [hmain] at hpk h
  rw [hmain, sends_mainOf] at hix
  obtain ⟨g1, g2, g3, g4, g5⟩ := add_run hB.healthy hB.leftover hr hfresh hpk hix h
  refine ⟨g1, g2, g3, g4, fun hj => ⟨root, _, hpost, ?_⟩⟩
  refine root_holds hB.runs hF hb g4 (fun b hbL => g5 hj b ?_)
  rcases hall b hbL with ⟨p, bs, h1, h2⟩ | h1
  · exact .inr ⟨p, bs, h1, h2⟩
  · exact .inl h1

theorem post_cases {start : Index Id} {sent : List (Blob Id)} {root : Id} {l : List (Post Id)}
    (h : backupPost C a snaps start sent root = .ok l) : l = [] ∨
      (a.dryRun = false ∧ l = [.putSnap ⟨a.now, a.tz, a.author, a.tags, a.paths, root⟩]) := by
  unfold backupPost at h
  simp only at h
  split at h
  · split at h
    · cases h; exact .inl rfl
    · cases h
  · split at h
    · split at h
      · cases h; exact .inl rfl
      · cases h
    · split at h
      · cases h; exact .inl rfl
      · rename_i hd
        cases h
        exact .inr ⟨by simpa using hd, rfl⟩

theorem holds_snaps {R : Repo Id} {m : BMap Id (Snapshot Id)} {id : Id} {d : Dir Bytes}
    (h : Holds C R id d) : Holds C { R with snapshots := m } id d :=
  has_mono_holds (R := R) (R' := { R with snapshots := m }) (fun _ hb => hb) h

theorem healthy_put {R : Repo Id} (h : Healthy C ids R) {i : Id} {sn : Snapshot Id}
    (hr : Readable C R sn) : Healthy C ids { R with snapshots := BMap.insert i sn R.snapshots } := by
  refine ⟨h.packs_sorted, h.indexes_sorted, BMap.sorted_insert h.snapshots_sorted _ _, h.pack_names,
    h.index_names, h.index_packs, h.present, h.distinct, h.once, h.one_kind, h.hashes, h.trees, h.full, ?_⟩
  intro j s hs
  rcases BMap.mem_insert_of hs with ⟨_, rfl⟩ | hs
  · obtain ⟨d, hd⟩ := hr
    exact ⟨d, holds_snaps hd⟩
  · obtain ⟨d, hd⟩ := h.readable j s hs
    exact ⟨d, holds_snaps hd⟩

end Backpak
