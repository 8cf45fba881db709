import Verif.Lemmas.Since
import Verif.Lemmas.Backup
import Verif.Lemmas.CheckRestore
import Verif.Props.C36

/-!
# C95: comparing a snapshot with what it was made from tells what has changed
-/

namespace Backpak.C95

open Spec Since

variable {Id : Type} [LinearOrder Id] {C : Codec Id} {ids : Ids Id} {R : Repo Id} {src : Source Id} {cut : Bytes → Nat}
  {look : Look} {s s1 s2 : Snapshot Id} {d1 d2 : Dir Bytes} {m : Bool}

theorem holdsCut_holds {id : Id} {d : Dir Bytes} (h : HoldsCut C R cut id d) : Holds C R id d := by
  obtain ⟨t, h1, h2⟩ := h
  exact ⟨t, h1, h2.mono (fun _ _ h => h.1) (fun _ _ h => h)⟩

/-- A loaded forest, with the chunks its files have. -/
theorem loaded_cut {F : Forest Id} {id : Id} {d : Dir Bytes} (h : HoldsCut C R cut id d) (hl : Loaded C R F id d) :
    ∃ t, F.get? id = some t ∧
      HeldIn (fun cs x => (FileHolds C R cs x ∧ cs = (Chunk.chunkFile C.hash cut x).map Blob.id)) F t d := by
  obtain ⟨t, h1, h2⟩ := h
  exact ⟨t, (hl.exact _ _).mpr ⟨.refl, h1⟩, rel_in_forest (fun id t a b => (hl.exact id t).mpr ⟨a, b⟩) h2
    (fun x hx => reaches_sub .refl h1 hx)⟩

/-- Comparing two snapshots whose files were cut into chunks alike prints each path at most once with
each sign, and with exactly the signs called for by what it is in the one and in the other. -/
theorem snapshots (hH : Healthy C ids R) (ho : Opens R src) (hd1 : HoldsCut C R cut s1.tree d1)
    (hd2 : HoldsCut C R cut s2.tree d2) (hk1 : d1.KindsOk) (hk2 : d2.KindsOk) :
    ∃ L, diffSnapshots C src m s1 s2 = .ok L ∧ (L.map (fun e => (e.1, e.2.1))).Nodup ∧
      ∀ sg p, (∃ x, (sg, p, x) ∈ L) ↔ Says m (entry d1 p) (entry d2 p) sg := by
  obtain ⟨F1, cache, g1, l1, hc⟩ := load_from hH.sound ho (holdsCut_holds hd1) newTreeCache_ok
  obtain ⟨F2, cache', g2, l2, _⟩ := load_from hH.sound ho (holdsCut_holds hd2) hc
  obtain ⟨t1, a1, a2⟩ := loaded_cut hd1 l1
  obtain ⟨t2, b1, b2⟩ := loaded_cut hd2 l2
  obtain ⟨L, k1, k2, k3⟩ := lines (m := m)
    (C38.comparable hH l1 l2 (holdsCut_holds hd1) (holdsCut_holds hd2) hk1 hk2) a1 a2 b1 b2 (by
      rintro _ _ _ cs x cs' x' _ _ ⟨h1, h2⟩ ⟨h3, h4⟩
      constructor
      · rintro rfl; exact fileHolds_one hH.sound h1 h3
      · rintro rfl; rw [h2, h4])
  exact ⟨L, by simp only [diffSnapshots, g1, g2, k1], k2, k3⟩

/-- Comparing a snapshot with its paths prints each path at most once with each sign, and with exactly
the signs called for by what it is in the snapshot and what is there as far as it is looked at: files of
the same size and modification time are taken for unmodified. -/
theorem exactly (hS : Sound C R) (ho : Opens R src) (h : DiffOk C R cut look s d1) :
    ∃ L, diffPaths C src cut look m s = .ok L ∧ (L.map (fun e => (e.1, e.2.1))).Nodup ∧
      ∀ sg p, (∃ x, (sg, p, x) ∈ L) ↔ Says m (entry d1 p) (seenAt (entry d1 p) (entry (there s look) p)) sg := by
  obtain ⟨F1, cache, g1, l1, _⟩ := load_from hS ho (holdsCut_holds h.holds) newTreeCache_ok
  obtain ⟨t1, a1, a2⟩ := loaded_cut h.holds l1
  let d := there s look
  let dS := asSeen d1 d
  have hnd : d.names.Nodup := by
    refine List.Nodup.sublist (names_listing _) ?_
    rw [List.map_map]
    exact h.distinct
  have hnS : dS.names.Nodup := hnd.sublist (names_asSeen d d1)
  have hfew : dS.names.length < 2 ^ 64 := by
    refine lt_of_le_of_lt (names_asSeen d d1).length_le (lt_of_le_of_lt (names_listing _).length_le ?_)
    rw [List.length_map, List.length_map]
    exact h.few
  have hQ : ∀ id u n cs md, F1.get? id = some u → (n, (⟨.file cs, md⟩ : Node Id)) ∈ u →
      (∃ id t n md, TreeAt C R id t ∧ (n, (⟨.file cs, md⟩ : Node Id)) ∈ t) ∧ cs.length < 2 ^ 64 := by
    intro id u n cs md hu hm
    have := ((l1.exact id u).mp hu).2
    exact ⟨⟨id, u, n, md, this, hm⟩, this.1.contents _ hm⟩
  let PF : List Id → Bytes → Prop := fun cs x =>
    KnownFile C R cut dS cs x ∧ cs = (Chunk.chunkFile C.hash cut x).map Blob.id
  have hheld : HeldIn (fun cs x => PF cs x ∧ cs.length < 2 ^ 64) F1 t1 d1 :=
    (held_recorded hQ a2 (fun n cs md h => hQ _ t1 n cs md a1 h)).mono
      (fun cs x h => ⟨⟨.inr ⟨h.1.1, h.2.1⟩, h.1.2⟩, h.2.2⟩) (fun _ _ h => h)
  obtain ⟨t, f, k1, k2, k3, k4, k5, k6⟩ := forest_from_fs (cut := cut) (M := InvolvedTree C R cut dS [])
    (PF := PF) h.trees (l1.nodesOk hS (holdsCut_holds h.holds) h.kinds1) h.contract
    (pathOf := fun n => [n]) (root := some s.tree) (d := dS) (plain_asSeen d d1) (kinds_asSeen h.kinds2 d1)
    (subs_asSeen h.sorted d1) (fits_asSeen h.fits2 d1 h.fits1) hfew
    (reuse_of_faithful dS _ d1 (fun t ht => by
      have : t = t1 := by simpa [a1] using ht.symm
      rw [this]; exact hheld) (faithful_asSeen d d1))
    (fun x hx => ⟨.inl ⟨hx, rfl⟩, rfl⟩)
    (by
      rintro s' hs' u hu hb
      have hb' : ByHash C (KnownFile C R cut dS) u s' := hb.mono (fun _ _ h => h.1) (fun _ _ h => h)
      refine .inr ⟨s', ?_, hu, hb'⟩
      rcases hs' with hs' | rfl
      · exact .inl hs'
      · exact .inr (.inl ⟨sorted_arrange (subs_asSeen h.sorted d1), fun n => child_arrange hnS n⟩)) hnS
  have hroot : F1.get? s.tree = some t1 := a1
  rw [forest_asSeen (d := d) a1 a2] at k1
  have hcomp : C38.Comparable F1 f s.tree (C.hash (C.encTree t)) := by
    refine ⟨l1.grounded, .mk k5 (dirRel_grounded k6), l1.sorted, ?_, l1.nodesOk hS (holdsCut_holds h.holds) h.kinds1, ?_, ?_⟩
    · intro id u hu
      exact (k4.made id u (BMap.mem_of_get? hu)).2.1.sorted
    · intro id u hu n x hx
      exact (k4.made id u (BMap.mem_of_get? hu)).2.2.2 (n, x) (BMap.mem_of_get? hx)
    · intro id u1 u2 h1 h2
      obtain ⟨e1, e2, e3, _⟩ := k4.made id u2 (BMap.mem_of_get? h2)
      have h3 := ((l1.exact id u1).mp h1).2
      exact h.trees u1 u2 (.inl ⟨id, h3⟩) e3 (h3.2.1.trans e1)
  obtain ⟨L, j1, j2, j3⟩ := lines (m := m) hcomp a1 a2 k5 k6 (by
    rintro p _ _ cs x cs' x' hx hx' ⟨_, h2⟩ ⟨_, h4⟩
    constructor
    · rintro rfl
      rw [entry_arranged hnS] at hx'
      exact same_bytes h.contract h.chunks (.inl (entry_hasFile p hx)) (hasFile_asSeen d d1 (entry_hasFile p hx'))
        (h2.symm.trans h4)
    · rintro rfl; rw [h2, h4])
  refine ⟨L, ?_, j2, ?_⟩
  · have hg := gather_ok (look := look) s.paths (fun p hp => ⟨h.named p hp, h.present p hp⟩)
    simp only [diffPaths, g1]
    rw [hg]
    dsimp only
    rw [show listing (s.paths.map fun p => (lastName p, look p)) = d from rfl, k1]
    exact j1
  · intro sg p
    rw [j3]
    rw [entry_arranged hnS, entry_asSeen _ d1 hnd h.sorted]

/-- Full claim: comparing a snapshot with its paths prints exactly what has changed. If every file that
has the size and modification time it had has the bytes it had, and there are no special files, it does. -/
theorem changes_partial (hS : Sound C R) (ho : Opens R src) (h : DiffOk C R cut look s d1)
    (hp : Plain (there s look)) (hf : Faithful d1 (there s look)) :
    ∃ L, diffPaths C src cut look m s = .ok L ∧ (L.map (fun e => (e.1, e.2.1))).Nodup ∧
      ∀ sg p, (∃ x, (sg, p, x) ∈ L) ↔ Says m (entry d1 p) (entry (there s look) p) sg := by
  obtain ⟨L, h1, h2, h3⟩ := exactly (m := m) hS ho h
  refine ⟨L, h1, h2, fun sg p => ?_⟩
  have hnd : (there s look).names.Nodup := by
    refine List.Nodup.sublist (names_listing _) ?_
    rw [List.map_map]
    exact h.distinct
  rw [h3, ← entry_asSeen p d1 hnd h.sorted, asSeen_self hp d1 hf]

/-- It prints nothing exactly if everything is as it was: the same paths, with the same bytes in files
and the same targets of symlinks, and with the same metadata if that is asked for. -/
theorem silent_partial (hS : Sound C R) (ho : Opens R src) (h : DiffOk C R cut look s d1)
    (hp : Plain (there s look)) (hf : Faithful d1 (there s look)) :
    diffPaths C src cut look m s = .ok [] ↔ ∀ p, SameEnt m (entry d1 p) (entry (there s look) p) := by
  obtain ⟨L, h1, _, h3⟩ := changes_partial (m := m) hS ho h hp hf
  rw [h1]
  constructor
  · intro he p
    cases he
    exact (says_none (entry_plain p hp)).mp (fun sg hs => by
      obtain ⟨x, hx⟩ := (h3 sg p).mpr hs
      cases hx)
  · intro hall
    have : L = [] := List.eq_nil_iff_forall_not_mem.mpr (by
      rintro ⟨sg, p, x⟩ hx
      exact (says_none (entry_plain p hp)).mpr (hall p) sg ((h3 sg p).mp ⟨x, hx⟩))
    rw [this]

/-- The same for two snapshots, without conditions on times. -/
theorem snapshots_silent (hH : Healthy C ids R) (ho : Opens R src) (hd1 : HoldsCut C R cut s1.tree d1)
    (hd2 : HoldsCut C R cut s2.tree d2) (hk1 : d1.KindsOk) (hk2 : d2.KindsOk) :
    diffSnapshots C src m s1 s2 = .ok [] ↔ ∀ p, SameEnt m (entry d1 p) (entry d2 p) := by
  obtain ⟨L, h1, _, h3⟩ := snapshots (m := m) hH ho hd1 hd2 hk1 hk2
  have hp : Plain d2 := by
    obtain ⟨t, ht, h⟩ := hd2
    clear h3 h1 ht
    induction h with
    | nil => trivial
    | file _ _ ih => exact ⟨by simp, ih hk2.2⟩
    | link _ ih => exact ⟨by simp, ih hk2.2⟩
    | dir _ _ _ ih1 ih2 => exact ⟨ih1 hk2.2.1, ih2 hk2.2.2⟩
  rw [h1]
  constructor
  · intro he p
    cases he
    exact (says_none (entry_plain p hp)).mp (fun sg hs => by
      obtain ⟨x, hx⟩ := (h3 sg p).mpr hs
      cases hx)
  · intro hall
    have : L = [] := List.eq_nil_iff_forall_not_mem.mpr (by
      rintro ⟨sg, p, x⟩ hx
      exact (says_none (entry_plain p hp)).mpr (hall p) sg ((h3 sg p).mp ⟨x, hx⟩))
    rw [this]

/-! ## After a backup -/

/-- What a backup makes, of files that are read or taken over from a parent that was made so too: with
all its blobs in the repository, the root stands for what was backed up, with the chunks the chunker
makes. -/
theorem made (hc : Chunk.Contract cut) {filter : Path → Bool} {F : Forest Id} {pathOf : Name → Path}
    {prev : Option Id} {d : Dir Bytes} {root : Id} {L : List (Blob Id)}
    (hfit : Fits (keep filter pathOf d)) (hlen : (keep filter pathOf d).names.length < 2 ^ 64) (hsub : SubsSorted d)
    (hre : Reuse (fun cs x => (FileHolds C R cs x ∧ cs = (Chunk.chunkFile C.hash cut x).map Blob.id) ∧
      cs.length < 2 ^ 64) F (prev.bind (fun id => F.get? id)) (keep filter pathOf d))
    (hb : backupBlobs C cut filter F pathOf prev d = .ok (root, L)) (hall : ∀ b ∈ L, Has C R b) :
    HoldsCut C R cut root (arrange (keep filter pathOf d)) := by
  obtain ⟨t, h1, rfl, h3, h4⟩ := backup_rel (PT := TreeAt C R)
    (PF := fun cs x => FileHolds C R cs x ∧ cs = (Chunk.chunkFile C.hash cut x).map Blob.id) hc
    (by
      intro x hx
      have := file_holds (C := C) (R := R) (Chunk.chunkFile C.hash cut x) (fun b hb =>
        ⟨hall b (hx b hb), (C10.chunk_bounds _ cut hc x b hb).2.2.2⟩)
      rw [C10.chunks_concat _ cut hc] at this
      exact ⟨this, rfl⟩)
    (fun t ht hm => ⟨ht, rfl, hm.imp (fun e => e) (hall _)⟩) hfit hlen hsub hre hb
  exact ⟨t, ⟨h1, rfl, h3.imp (fun e => e) (hall _)⟩, h4⟩

/-- Comparing a snapshot with its paths when nothing has changed since the backup: it prints, with
`+`, exactly what the backup skipped, and all that is below it. -/
theorem after_backup {filter : Path → Bool} {pathOf : Name → Path} (hS : Sound C R) (ho : Opens R src)
    (h : DiffOk C R cut look s (arrange (keep filter pathOf (there s look)))) :
    ∃ L, diffPaths C src cut look m s = .ok L ∧ (L.map (fun e => (e.1, e.2.1))).Nodup ∧
      ∀ sg n q, (∃ x, (sg, n :: q, x) ∈ L) ↔ sg = .plus ∧ ¬ Wanted filter (pathOf n) q ∧
        ∃ md l, entry (there s look) (n :: q) = some (md, l) ∧ l ≠ some .other := by
  obtain ⟨L, h1, h2, h3⟩ := exactly (m := m) hS ho h
  refine ⟨L, h1, h2, fun sg n q => ?_⟩
  have hnd : (there s look).names.Nodup := by
    refine List.Nodup.sublist (names_listing _) ?_
    rw [List.map_map]
    exact h.distinct
  rw [h3, entry_arranged (hnd.sublist (keep_names _ _ _))]
  obtain ⟨k1, k2, k3⟩ := entry_keep filter q pathOf n hnd h.sorted
  generalize hE : entry (there s look) (n :: q) = E at *
  generalize hK : entry (keep filter pathOf (there s look)) (n :: q) = K at *
  by_cases hw : Wanted filter (pathOf n) q
  · simp only [hw, not_true, false_and, and_false, iff_false]
    by_cases hoth : ∃ md, E = some (md, some .other)
    · obtain ⟨md, rfl⟩ := hoth
      rw [k3 ⟨md, rfl⟩]
      simp only [seenAt]
      cases sg <;> simp [Says]
    · rw [k1 hw (fun md he => hoth ⟨md, he⟩)]
      have hse : seenAt E E = E := by
        rcases E with _ | ⟨md, _ | l⟩
        · rfl
        · rfl
        · cases l with
          | other => exact absurd ⟨md, rfl⟩ hoth
          | link _ => rfl
          | file x => simp [seenAt]
      rw [hse]
      exact (says_none (fun md he => hoth ⟨md, he⟩)).mpr (by
        rcases E with _ | e
        · trivial
        · exact ⟨rfl, fun _ => rfl⟩) sg
  · rw [k2 hw]
    rcases E with _ | ⟨md, _ | l⟩
    · cases sg <;> simp [Says, seenAt]
    · cases sg <;> simp [Says, seenAt, hw]
    · cases l <;> cases sg <;> simp [Says, seenAt, hw]

/-- What the snapshot has as a file or directory and is a symlink there is printed with `-` and with
`+`. A backup that follows symlinks makes such snapshots, and comparing does not follow them. -/
theorem followed_shown (hS : Sound C R) (ho : Opens R src) (h : DiffOk C R cut look s d1) {p : Path}
    {md md' : Meta} {l : Option (Leaf Bytes)} {tgt : Bytes} (h1 : entry d1 p = some (md, l))
    (hl : ∀ t, l ≠ some (.link t)) (h2 : entry (there s look) p = some (md', some (.link tgt))) :
    ∃ L, diffPaths C src cut look m s = .ok L ∧ (∃ x, (.minus, p, x) ∈ L) ∧ ∃ x, (.plus, p, x) ∈ L := by
  obtain ⟨L, k1, _, k3⟩ := exactly (m := m) hS ho h
  have hse : seenAt (some (md, l)) (some (md', some (.link tgt))) = some (md', some (.link tgt)) := by
    rcases l with _ | _ | _ | _ <;> rfl
  have hoth : OtherThing (md, l) (md', some (.link tgt)) := by
    rcases l with _ | _ | t | _
    · trivial
    · trivial
    · exact absurd rfl (hl t)
    · trivial
  refine ⟨L, k1, (k3 .minus p).mpr ?_, (k3 .plus p).mpr ?_⟩
  · rw [h1, h2, hse]
    exact ⟨_, rfl, fun e' h => by cases h; exact hoth⟩
  · rw [h1, h2, hse]
    exact ⟨_, rfl, fun e' h => by cases h; exact hoth⟩

/-- If something is no longer at one of the paths, it fails. (It does not print it with `-`.) -/
theorem gone (hS : Sound C R) (ho : Opens R src) (hd : Holds C R s.tree d1) {p : Path} (hp : p ∈ s.paths)
    (hg : look p = none) : ∃ e, diffPaths C src cut look m s = .error e := by
  obtain ⟨F1, cache, g1, _, _⟩ := load_from hS ho hd newTreeCache_ok
  have : ∀ l : List Path, p ∈ l → ∃ e, gather look l = .error e := by
    intro l
    induction l with
    | nil => intro h; cases h
    | cons q l ih =>
      intro h
      unfold gather
      split
      · exact ⟨_, rfl⟩
      · split
        · exact ⟨_, rfl⟩
        · rename_i hq
          rcases List.mem_cons.mp h with rfl | h
          · rw [hg] at hq; cases hq
          · obtain ⟨e, he⟩ := ih h
            rw [he]
            exact ⟨e, rfl⟩
  obtain ⟨e, he⟩ := this _ hp
  exact ⟨e, by simp only [diffPaths, g1, he]⟩

/-! ## As a command -/

/-- `diff LAST~n` tells what has changed since the snapshot `n` before the last, and `diff` of two such
names what differs between those. -/
theorem command_partial {C : Codec ObjectId} {R : Repo ObjectId} {src : Source ObjectId}
    {snaps pre post : List (Snap ObjectId)} {s : Snap ObjectId} {d1 : Dir Bytes} {name : Bytes}
    (hS : Sound C R) (ho : Opens R src) (hsnaps : snaps = pre ++ s :: post) (hname : C36.LastName post.length name)
    (hfew : post.length < 2 ^ 64) (h : DiffOk C R cut look s.1 d1)
    (hp : Plain (there s.1 look)) (hf : Faithful d1 (there s.1 look)) :
    ∃ L, diffCommand C src cut look snaps m name none = .ok L ∧
      ∀ sg p, (∃ x, (sg, p, x) ∈ L) ↔ Says m (entry d1 p) (entry (there s.1 look) p) sg := by
  obtain ⟨L, h1, _, h3⟩ := changes_partial (m := m) hS ho h hp hf
  refine ⟨L, ?_, h3⟩
  unfold diffCommand
  rw [(C36.last_name snaps _ name hname hfew s).mpr ⟨pre, post, hsnaps, rfl⟩]
  exact h1

theorem command_two {C : Codec ObjectId} {ids : Ids ObjectId} {R : Repo ObjectId} {src : Source ObjectId}
    {snaps pre post pre' post' : List (Snap ObjectId)} {s s' : Snap ObjectId} {d1 d2 : Dir Bytes} {name name' : Bytes}
    (hH : Healthy C ids R) (ho : Opens R src) (hsnaps : snaps = pre ++ s :: post) (hname : C36.LastName post.length name)
    (hfew : post.length < 2 ^ 64) (hsnaps' : snaps = pre' ++ s' :: post') (hname' : C36.LastName post'.length name')
    (hfew' : post'.length < 2 ^ 64) (hd1 : HoldsCut C R cut s.1.tree d1)
    (hd2 : HoldsCut C R cut s'.1.tree d2) (hk1 : d1.KindsOk) (hk2 : d2.KindsOk) :
    ∃ L, diffCommand C src cut look snaps m name (some name') = .ok L ∧
      ∀ sg p, (∃ x, (sg, p, x) ∈ L) ↔ Says m (entry d1 p) (entry d2 p) sg := by
  obtain ⟨L, h1, _, h3⟩ := snapshots (m := m) hH ho hd1 hd2 hk1 hk2
  refine ⟨L, ?_, h3⟩
  unfold diffCommand
  rw [(C36.last_name snaps _ name hname hfew s).mpr ⟨pre, post, hsnaps, rfl⟩]
  dsimp only
  rw [(C36.last_name snaps _ name' hname' hfew' s').mpr ⟨pre', post', hsnaps', rfl⟩]
  exact h1

/-! ## Cases -/

open Demo

/-- The directory `/h`, with these entries. -/
def lookC (d : Dir Bytes) : Look := fun p => if p = [[], [104]] then some ((dirMd, none), d) else none

theorem thereC (d : Dir Bytes) : there snapH (lookC d) = .dir [104] dirMd d .nil := rfl

theorem holdsCutH : HoldsCut codec repoH Demo.cut snapH.tree dirH :=
  ⟨_, Check.treeAt_sound (t := [([104], ⟨.dir treeA.id, dirMd⟩)]) (by decide +kernel),
    .dir (Check.treeAt_sound (t := [([97], ⟨.file [chunkA.id], fileMd 3 5⟩)]) (by decide +kernel))
      (.file ⟨Check.fileAt_sound _ (by decide +kernel), by decide +kernel⟩ .nil) .nil⟩

theorem fitsDirH : Fits dirH :=
  ⟨by decide, okDirMd, by decide, ⟨by decide, okFileMd _ _ (by decide) (by decide), by simp [LeafFits], trivial⟩, trivial⟩

/-- What it takes to compare the snapshot of `/h` with it. -/
theorem diffOkH {d : Dir Bytes} (hk : d.KindsOk) (hs : d.Sorted) (hf : Fits d) (hlen : d.names.length < 2 ^ 64)
    (hc : ∀ x ∈ Check.filesOf dirH ++ Check.filesOf d, ∀ y ∈ Check.filesOf dirH ++ Check.filesOf d,
      ∀ b ∈ Chunk.chunkFile codec.hash Demo.cut x, ∀ c ∈ Chunk.chunkFile codec.hash Demo.cut y, b.id = c.id → b.data = c.data)
    (hss : (asSeen dirH (there snapH (lookC d))).Sorted)
    (ht : ∀ t ∈ Check.involvedTrees codec repoH Demo.cut (asSeen dirH (there snapH (lookC d))) [],
      ∀ t' ∈ Check.involvedTrees codec repoH Demo.cut (asSeen dirH (there snapH (lookC d))) [],
      codec.hash (codec.encTree t) = codec.hash (codec.encTree t') → t = t') :
    DiffOk codec repoH Demo.cut (lookC d) snapH dirH where
  holds := holdsCutH
  kinds1 := ⟨rfl, ⟨rfl, trivial⟩, trivial⟩
  fits1 := fitsDirH
  named := by decide
  distinct := by decide
  few := by decide
  present := by
    intro p hp
    rw [List.mem_singleton.mp hp]
    simp [lookC]
  kinds2 := ⟨rfl, hk, trivial⟩
  sorted := ⟨hs, trivial⟩
  fits2 := ⟨by simp [lastName, fileName], okDirMd, hlen, hf, trivial⟩
  contract := cut_contract
  chunks := by
    have hthere : ∀ x, HasFile x (there snapH (lookC d)) → x ∈ Check.filesOf d := by
      intro x hx
      have := Check.mem_filesOf hx
      rw [thereC] at this
      simpa [Check.filesOf] using this
    intro x y hx hy
    refine hc x (List.mem_append.mpr (hx.imp Check.mem_filesOf (hthere x))) y
      (List.mem_append.mpr (hy.imp Check.mem_filesOf (hthere y)))
  trees := Check.trees_differ hss ht

/-- Where `a` was is a directory with a file in it now, and `z` is new. -/
def dirC : Dir Bytes :=
  .dir [97] dirMd (.leaf [98] (fileMd 2 9) (.file [7, 7]) .nil) (.leaf [122] (fileMd 1 8) (.file [9]) .nil)

theorem okC : DiffOk codec repoH Demo.cut (lookC dirC) snapH dirH :=
  diffOkH ⟨rfl, ⟨rfl, trivial⟩, rfl, trivial⟩ ⟨by decide, ⟨by decide, trivial⟩, by decide, trivial⟩
    ⟨by decide, okDirMd, by decide, ⟨by decide, okFileMd _ _ (by decide) (by decide), by simp [LeafFits], trivial⟩,
      by decide, okFileMd _ _ (by decide) (by decide), by simp [LeafFits], trivial⟩ (by decide)
    (by decide +kernel) ⟨by decide, ⟨by decide, ⟨by decide, trivial⟩, by decide, trivial⟩, trivial⟩ (by decide +kernel)

example : Sound codec repoH ∧ Opens repoH (Check.opened repoH) ∧ DiffOk codec repoH Demo.cut (lookC dirC) snapH dirH ∧
    Plain (there snapH (lookC dirC)) ∧ Faithful dirH (there snapH (lookC dirC)) ∧
    (diffPaths codec (Check.opened repoH) Demo.cut (lookC dirC) false snapH).toOption.map
      (fun L => L.map (fun e => (e.1, e.2.1))) =
    some [(.minus, [[104], [97]]), (.plus, [[104], [97]]), (.plus, [[104], [97], [98]]), (.plus, [[104], [122]])] :=
  ⟨healthyH.sound, Check.opened_opens healthyH, okC, by simp [thereC, dirC, Plain], by
    simp [thereC, dirC, Faithful, dirH, fileAt, subAt], by decide +kernel⟩

/-- `a` has other bytes, and the size and modification time it had. -/
def dirM : Dir Bytes := .leaf [97] (fileMd 3 5) (.file [7, 7, 7]) .nil

theorem okM : DiffOk codec repoH Demo.cut (lookC dirM) snapH dirH :=
  diffOkH ⟨rfl, trivial⟩ ⟨by decide, trivial⟩
    ⟨by decide, okFileMd _ _ (by decide) (by decide), by simp [LeafFits], trivial⟩ (by decide)
    (by decide +kernel) ⟨by decide, ⟨by decide, trivial⟩, trivial⟩ (by decide +kernel)

/-- The full claim does not hold: a file whose bytes have changed, and whose size and modification time
have not, is not shown. -/
theorem missed : Sound codec repoH ∧ Opens repoH (Check.opened repoH) ∧
    DiffOk codec repoH Demo.cut (lookC dirM) snapH dirH ∧ Plain (there snapH (lookC dirM)) ∧
    entry dirH [[104], [97]] = some (fileMd 3 5, some (.file [1, 2, 3])) ∧
    entry (there snapH (lookC dirM)) [[104], [97]] = some (fileMd 3 5, some (.file [7, 7, 7])) ∧
    ∀ m, diffPaths codec (Check.opened repoH) Demo.cut (lookC dirM) m snapH = .ok [] := by
  refine ⟨healthyH.sound, Check.opened_opens healthyH, okM, by simp [thereC, dirM, Plain], by decide, by decide, ?_⟩
  intro m
  have : (diffPaths codec (Check.opened repoH) Demo.cut (lookC dirM) m snapH).toOption.map List.length = some 0 := by
    cases m <;> decide +kernel
  cases h : diffPaths codec (Check.opened repoH) Demo.cut (lookC dirM) m snapH with
  | error e => rw [h] at this; cases this
  | ok L =>
    rw [h] at this
    rw [List.eq_nil_of_length_eq_zero (Option.some.inj this)]

/-- Beside `a` there is a file `z`, which the backup is told to skip. -/
def dirS : Dir Bytes :=
  .leaf [97] (fileMd 3 5) (.file [1, 2, 3]) (.leaf [122] (fileMd 1 8) (.file [9]) .nil)

example : Sound codec repoH ∧ Opens repoH (Check.opened repoH) ∧
    DiffOk codec repoH Demo.cut (lookC dirS) snapH (arrange (keep (fun p => p != [[], [104], [122]]) (fun n => [[], n])
      (there snapH (lookC dirS)))) ∧
    ¬ Wanted (fun p => p != [[], [104], [122]]) [[], [104]] [[122]] := by
  have h : arrange (keep (fun p => p != [[], [104], [122]]) (fun n => [[], n]) (there snapH (lookC dirS))) = dirH := by
    decide
  rw [h]
  exact ⟨healthyH.sound, Check.opened_opens healthyH, diffOkH ⟨rfl, rfl, trivial⟩ ⟨by decide, by decide, trivial⟩
    ⟨by decide, okFileMd _ _ (by decide) (by decide), by simp [LeafFits],
      by decide, okFileMd _ _ (by decide) (by decide), by simp [LeafFits], trivial⟩ (by decide)
    (by decide +kernel) ⟨by decide, ⟨by decide, by decide, trivial⟩, trivial⟩ (by decide +kernel), by
      intro hw
      have := hw 1 (by decide)
      simp at this⟩

/-- `a` is a symlink. -/
def dirL : Dir Bytes := .leaf [97] linkMd (.link [47, 120]) .nil

example : DiffOk codec repoH Demo.cut (lookC dirL) snapH dirH ∧
    entry dirH [[104], [97]] = some (fileMd 3 5, some (.file [1, 2, 3])) ∧
    entry (there snapH (lookC dirL)) [[104], [97]] = some (linkMd, some (.link [47, 120])) :=
  ⟨diffOkH ⟨rfl, trivial⟩ ⟨by decide, trivial⟩ ⟨by decide, okLinkMd, by simp [LeafFits], trivial⟩ (by decide)
    (by decide +kernel) ⟨by decide, ⟨by decide, trivial⟩, trivial⟩ (by decide +kernel), by decide, by decide⟩

/-- `/h` is gone. -/
example : Holds codec repoH snapH.tree dirH ∧ [[], [104]] ∈ snapH.paths ∧ (fun _ => none : Look) [[], [104]] = none :=
  ⟨holdsH, by decide, rfl⟩

/-- Two snapshots. -/
example : Healthy codec pruneIds C38.repo12 ∧ Opens C38.repo12 (Check.opened C38.repo12) ∧
    HoldsCut codec C38.repo12 Demo.cut C38.snap1.tree C38.dir1 ∧
    HoldsCut codec C38.repo12 Demo.cut C38.snap2.tree C38.dir2 ∧ C38.dir1.KindsOk ∧ C38.dir2.KindsOk :=
  ⟨C38.healthy12, Check.opened_opens C38.healthy12,
    ⟨_, Check.treeAt_sound (t := C38.tree1) (by decide +kernel),
      .file ⟨C38.holdsA, by decide +kernel⟩ (.dir C38.holdsDir (.file ⟨C38.holdsB, by decide +kernel⟩ .nil) (.link .nil))⟩,
    ⟨_, Check.treeAt_sound (t := C38.tree2) (by decide +kernel),
      .file ⟨C38.holdsB, by decide +kernel⟩ (.file ⟨C38.holdsA, by decide +kernel⟩
        (.link (.dir C38.holdsDir (.file ⟨C38.holdsB, by decide +kernel⟩ .nil) .nil)))⟩,
    by simp only [C38.dir1, C38.dirB, Dir.KindsOk]; decide +kernel,
    by simp only [C38.dir2, C38.dirB, Dir.KindsOk]; decide +kernel⟩

/-- What a backup of `/h` without `z` makes is all in the repository. -/
example : (match backupBlobs codec Demo.cut (fun p => p != [[], [104], [122]]) [] (fun n => [[], n]) none
      (there snapH (lookC dirS)) with
    | .ok (root, L) => decide (root = snapH.tree ∧ L.length = 3 ∧ ∀ b ∈ L, codec.hash b.data = b.id ∧ b ∈ Check.blobs repoH)
    | .error _ => false) = true := by
  decide +kernel

/-- `diff LAST`. -/
example : C36.LastName 0 (ascii "LAST") := .last

end Backpak.C95
