import Verif.Lemmas.Serde

/-!
# C05 - Snapshot files survive the trip to disk
-/

namespace Backpak.C05

open Serde

variable {O : OldTime}

/-- Loading a written snapshot file gives the same time, zone, author, tags, paths and tree. -/
theorem snapshot_round_trip (s : Snapshot ObjectId) (h : OkSnapshot s) (rest : Bytes) :
    readSnapshotFile O (snapshotFile s ++ rest) = some (s, rest) := by
  have e : snapshotFile s ++ rest = ascii "MKBAKSNP" ++ (0x32 :: (encSnapshot s ++ rest)) := by
    have : ascii "2" = [0x32] := by decide
    unfold snapshotFile
    rw [this]; simp
  have hl : (ascii "MKBAKSNP").length = 8 := by decide
  unfold readSnapshotFile
  rw [e, List.take_left' hl, List.drop_left' hl]
  rw [if_pos rfl]
  dsimp only
  rw [if_neg (by decide), if_pos rfl]
  exact read_enc _ _ _ _ (ok_snapshot _ s h) (asSnapshot_snapshot s h)

/-- Different snapshots have different bytes. -/
theorem snapshot_bytes_injective (s t : Snapshot ObjectId) (hs : OkSnapshot s) (ht : OkSnapshot t)
    (h : snapshotFile s = snapshotFile t) : s = t := by
  have h1 := snapshot_round_trip (O := fun _ => none) s hs []
  rw [h, snapshot_round_trip t ht] at h1
  simpa [eq_comm] using h1

/-- A file with any other magic is refused. -/
theorem other_magic_refused (bs : Bytes) (h : ¬ ascii "MKBAKSNP" <+: bs) :
    readSnapshotFile O bs = none := by
  unfold readSnapshotFile
  rw [if_neg]
  intro he
  apply h
  rw [← he]
  exact List.take_prefix 8 bs

/-! ## Version 1 -/

theorem asSnapshotV1_snapshotV1 (t : Bytes) (s : Snapshot ObjectId) (h : OkSnapshot s) (ht : O t = some (s.time, s.tz)) :
    asSnapshotV1 O (snapshotV1 t s) = some s := by
  obtain ⟨time, tz, author, tags, paths, tree⟩ := s
  obtain ⟨_, _, _, htags, _, _, hpaths, _, hpok⟩ := h
  simp only at htags hpaths hpok ht
  unfold asSnapshotV1 snapshotV1
  simp only
  generalize hP : Cbor.arr (paths.map fun p => .text (pathText p)) = P
  generalize hR : oid tree = R
  generalize hG : Cbor.arr (tags.map .text) = G
  have hR' : asOid R = some tree := by subst hR; simp
  have hP' : asArr P = some (paths.map fun p => .text (pathText p)) := by subst hP; rfl
  have hG' : asArr G = some (tags.map .text) := by subst hG; rfl
  have hPP : (paths.map fun p => Cbor.text (pathText p)).mapM asText
      = some (paths.map pathText) := by
    apply mapM_map_some
    intro a _
    rfl
  have hPm : (paths.map pathText).map pathOfText = paths := by
    rw [List.map_map]
    conv_rhs => rw [← List.map_id paths]
    apply List.map_congr_left
    intro p hp
    exact pathOfText_pathText p (hpok p hp).1
  have hTag : (tags.map Cbor.text).mapM asText = some tags := mapM_map_id _ _ _ (fun _ _ => rfl)
  have e : asFields (.map [str "time", .text t, str "author", .text author, str "tags", G, str "paths", P, str "tree", R])
    = some [(ascii "time", .text t), (ascii "author", .text author), (ascii "tags", G), (ascii "paths", P),
      (ascii "tree", R)] := rfl
  rw [e]
  generalize hF : [(ascii "time", Cbor.text t), (ascii "author", Cbor.text author), (ascii "tags", G),
    (ascii "paths", P), (ascii "tree", R)] = F
  have f1 : field "time" F = some (.text t) := by subst hF; rfl
  have f3 : field "author" F = some (.text author) := by subst hF; rfl
  have f4 : field "paths" F = some P := by subst hF; rfl
  have f5 : field "tree" F = some R := by subst hF; rfl
  have f6 : field "tags" F = some G := by subst hF; rfl
  simp only [Option.bind_eq_bind, Option.bind_some, f1, f3, f4, f5, f6, hR', hP', hPP, asText, pure, hPm, hG', hTag, ht]
  rw [BSet.ofList_of_sorted hpaths, BSet.ofList_of_sorted htags]

theorem ok_snapshotV1 (d : Nat) (t : Bytes) (ht : t.length < 2 ^ 64) (s : Snapshot ObjectId) (h : OkSnapshot s) :
    Cbor.Ok (d + 3) (snapshotV1 t s) := by
  unfold snapshotV1
  rw [Cbor.Ok]
  refine ⟨by simp, by simp, ?_⟩
  simp only [Cbor.Oks, and_true]
  refine ⟨ok_str _ _ (by decide), ht, ok_str _ _ (by decide), h.author, ok_str _ _ (by decide), ?_,
    ok_str _ _ (by decide), ?_, ok_str _ _ (by decide), ok_oid _ _⟩
  · rw [Cbor.Ok]
    refine ⟨by simpa using h.tags_len, Cbor.Oks_of_mem ?_⟩
    intro v hv
    obtain ⟨e, he, rfl⟩ := List.mem_map.mp hv
    exact h.tag_len e he
  · rw [Cbor.Ok]
    refine ⟨by simpa using h.paths_len, Cbor.Oks_of_mem ?_⟩
    intro v hv
    obtain ⟨e, he, rfl⟩ := List.mem_map.mp hv
    exact (h.path_ok e he).2

/-- A snapshot that an old version of the program wrote, with its time as the text `t`, is read as what it says. -/
theorem old_snapshot_read (t : Bytes) (ht : t.length < 2 ^ 64) (s : Snapshot ObjectId) (h : OkSnapshot s)
    (htime : O t = some (s.time, s.tz)) (rest : Bytes) :
    readSnapshotFile O (ascii "MKBAKSNP1" ++ Cbor.enc (snapshotV1 t s) ++ rest) = some (s, rest) := by
  have e : ascii "MKBAKSNP1" ++ Cbor.enc (snapshotV1 t s) ++ rest =
      ascii "MKBAKSNP" ++ (0x31 :: (Cbor.enc (snapshotV1 t s) ++ rest)) := rfl
  have hl : (ascii "MKBAKSNP").length = 8 := by decide
  unfold readSnapshotFile
  rw [e, List.take_left' hl, List.drop_left' hl, if_pos rfl]
  dsimp only
  rw [if_pos rfl]
  exact read_enc _ _ _ _ (ok_snapshotV1 _ t ht s h) (asSnapshotV1_snapshotV1 t s h htime)

/-- A file of any other version is refused. -/
theorem other_version_refused (v : UInt8) (h1 : v ≠ 0x31) (h2 : v ≠ 0x32) (rest : Bytes) :
    readSnapshotFile O (ascii "MKBAKSNP" ++ v :: rest) = none := by
  have hl : (ascii "MKBAKSNP").length = 8 := by decide
  unfold readSnapshotFile
  rw [List.take_left' hl, List.drop_left' hl, if_pos rfl]
  dsimp only
  rw [if_neg h1, if_neg h2]

/-- A dry run of a backup says which ID the snapshot would have (`src/ui/backup.rs:277-284`). It hashes the record of
version 1, not what would be stored: never the same bytes. -/
theorem dry_run_hashes_other_bytes (t : Bytes) (ht : t.length < 2 ^ 64) (s : Snapshot ObjectId) (h : OkSnapshot s) :
    Cbor.enc (snapshotV1 t s) ≠ encSnapshot s := by
  intro e
  have h1 := Cbor.dec_enc Cbor.limit _ (ok_snapshotV1 _ t ht s h) []
  have h2 := Cbor.dec_enc Cbor.limit _ (ok_snapshot _ s h) []
  have e' : Cbor.enc (snapshotV1 t s) = Cbor.enc (snapshot s) := e
  rw [e', h2] at h1
  have h3 : snapshot s = snapshotV1 t s := (Prod.mk.inj (Option.some.inj h1)).1
  unfold snapshot snapshotV1 at h3
  have h4 := Cbor.map.inj h3
  simp only [List.cons_append, List.cons.injEq] at h4
  obtain ⟨_, h5, _⟩ := h4
  unfold int at h5
  split at h5 <;> cases h5

/-- What the reference file says. -/
def eagle : Snapshot ObjectId :=
  ⟨-14182940000000000, ascii "UTC", ascii "Neil", [ascii "Apollo", ascii "NASA"],
    [[ascii "moon", ascii "orbit"], [ascii "moon", ascii "tranquility-base"]],
    ⟨[0xb2, 0xdb, 0x70, 0xf8, 0x12, 0xe4, 0x84, 0x13, 0xd8, 0xe7, 0x0a, 0x1f, 0x06, 0x5f, 0xce, 0x9c, 0x79, 0x13, 0xb9, 0x78, 0xc9, 0x97, 0x06, 0xd4, 0x41, 0x0c, 0x4d, 0x21], by decide⟩⟩

/-- The checked-in reference file `tests/references/snapshot.stability`, a version-1 record. -/
def reference : Bytes :=
  [0xa5, 0x64, 0x74, 0x69, 0x6d, 0x65, 0x78, 0x1e, 0x31, 0x39, 0x36, 0x39, 0x2d, 0x30, 0x37, 0x2d,
   0x32, 0x30, 0x54, 0x32, 0x30, 0x3a, 0x31, 0x37, 0x3a, 0x34, 0x30, 0x2b, 0x30, 0x30, 0x3a, 0x30,
   0x30, 0x5b, 0x55, 0x54, 0x43, 0x5d, 0x66, 0x61, 0x75, 0x74, 0x68, 0x6f, 0x72, 0x64, 0x4e, 0x65,
   0x69, 0x6c, 0x64, 0x74, 0x61, 0x67, 0x73, 0x82, 0x66, 0x41, 0x70, 0x6f, 0x6c, 0x6c, 0x6f, 0x64,
   0x4e, 0x41, 0x53, 0x41, 0x65, 0x70, 0x61, 0x74, 0x68, 0x73, 0x82, 0x6a, 0x6d, 0x6f, 0x6f, 0x6e,
   0x2f, 0x6f, 0x72, 0x62, 0x69, 0x74, 0x75, 0x6d, 0x6f, 0x6f, 0x6e, 0x2f, 0x74, 0x72, 0x61, 0x6e,
   0x71, 0x75, 0x69, 0x6c, 0x69, 0x74, 0x79, 0x2d, 0x62, 0x61, 0x73, 0x65, 0x64, 0x74, 0x72, 0x65,
   0x65, 0x58, 0x1c, 0xb2, 0xdb, 0x70, 0xf8, 0x12, 0xe4, 0x84, 0x13, 0xd8, 0xe7, 0x0a, 0x1f, 0x06,
   0x5f, 0xce, 0x9c, 0x79, 0x13, 0xb9, 0x78, 0xc9, 0x97, 0x06, 0xd4, 0x41, 0x0c, 0x4d, 0x21]

/-- It is what version 1 makes of that snapshot, and is read as it. -/
example : Cbor.enc (snapshotV1 (ascii "1969-07-20T20:17:40+00:00[UTC]") eagle) = reference ∧
    readSnapshotFile (fun t => if t = ascii "1969-07-20T20:17:40+00:00[UTC]" then some (-14182940000000000, ascii "UTC")
      else none) (ascii "MKBAKSNP1" ++ reference) = some (eagle, []) := by
  decide +kernel

/-- A concrete snapshot meeting the hypothesis, taken before the epoch, with a tag, an
absolute and a relative path. -/
def sample : Snapshot ObjectId :=
  ⟨-14182940000000000, ascii "UTC", ascii "Neil", [ascii "Apollo", ascii "NASA"],
    [[[], ascii "moon", ascii "orbit"], [ascii "moon"]], ⟨List.replicate 28 5, by decide⟩⟩

example : OkSnapshot sample where
  time := by decide
  tz := by decide
  author := by decide
  tags := by unfold BSet.Sorted; decide +kernel
  tags_len := by decide
  tag_len := by decide
  paths := by unfold BSet.Sorted; decide +kernel
  paths_len := by decide
  path_ok := by
    intro p hp
    simp only [sample, List.mem_cons, List.not_mem_nil, or_false] at hp
    rcases hp with rfl | rfl
    · exact ⟨⟨by decide, by decide⟩, by decide⟩
    · exact ⟨⟨by decide, by decide⟩, by decide⟩

example : readSnapshotFile (fun _ => none) (snapshotFile sample) = some (sample, []) := by decide +kernel

end Backpak.C05
