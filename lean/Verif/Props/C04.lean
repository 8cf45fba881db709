import Verif.Lemmas.Serde
import Mathlib.Data.List.Forall2

/-!
# C04 - Directory trees survive the trip to disk
-/

namespace Backpak.C04

open Serde

/-- Reading back a written tree gives the same tree: every name, contents and all metadata,
when timestamps are within 64-bit nanoseconds. -/
theorem tree_round_trip (t : Tree ObjectId) (h : OkTree t) (rest : Bytes) :
    decTree (encTree t ++ rest) = some (t, rest) :=
  read_enc _ _ _ _
    (ok_tree _ t h.len h.names h.contents (fun p hp => (h.mds p hp).noTime)) (asTree_tree t h)

/-- Different trees have different bytes. -/
theorem tree_bytes_injective (t u : Tree ObjectId) (ht : OkTree t) (hu : OkTree u)
    (h : encTree t = encTree u) : t = u := by
  have h1 := tree_round_trip t ht []
  rw [h, tree_round_trip u hu] at h1
  simpa [eq_comm] using h1

/-- Two optional timestamps are both absent, or differ by a multiple of 2^64 nanoseconds. -/
def SameOptTime : Option Int → Option Int → Prop
  | none, none => True
  | some a, some b => (2 ^ 64 : Int) ∣ a - b
  | _, _ => False

/-- The metadata of two nodes agrees in everything but timestamps, and each timestamp differs
by a multiple of 2^64 nanoseconds. -/
def SameButTimes : Meta → Meta → Prop
  | .posix p, .posix q => p.mode = q.mode ∧ p.size = q.size ∧ p.uid = q.uid ∧ p.gid = q.gid ∧
      (2 ^ 64 : Int) ∣ p.atime - q.atime ∧ (2 ^ 64 : Int) ∣ p.mtime - q.mtime
  | .windows p, .windows q => p.attributes = q.attributes ∧ p.size = q.size ∧
      SameOptTime p.ctime q.ctime ∧ SameOptTime p.atime q.atime ∧ SameOptTime p.mtime q.mtime
  | _, _ => False

/-- Timestamps outside the range do not make reading fail and change nothing else: the tree
that comes back has the same names and contents, and metadata equal but for timestamps
shifted by multiples of 2^64 nanoseconds. -/
theorem tree_round_trip_any_times (t : Tree ObjectId) (rest : Bytes)
    (hs : BMap.Sorted t) (hl : t.length < 2 ^ 64) (hn : ∀ p ∈ t, p.1.length < 2 ^ 64)
    (hc : ∀ p ∈ t, OkContents p.2.contents) (hm : ∀ p ∈ t, OkMetaNoTime p.2.md) :
    ∃ u, decTree (encTree t ++ rest) = some (u, rest) ∧
      List.Forall₂ (fun p q => p.1 = q.1 ∧ p.2.contents = q.2.contents ∧
        SameButTimes p.2.md q.2.md) t u := by
  refine ⟨treeI64 t, read_enc _ _ _ _ (ok_tree _ t hl hn hc hm) (asTree_tree' t hs hm), ?_⟩
  unfold treeI64
  rw [List.forall₂_map_right_iff, List.forall₂_same]
  intro p _
  refine ⟨rfl, rfl, ?_⟩
  cases p.2.md with
  | posix q =>
    refine ⟨rfl, rfl, rfl, rfl, ?_, ?_⟩ <;> simp only [asI64] <;> omega
  | windows q =>
    have aux : ∀ o : Option Int, SameOptTime o (o.map asI64) := by
      intro o
      cases o with
      | none => trivial
      | some a => simp only [SameOptTime, Option.map_some, asI64]; omega
    exact ⟨rfl, rfl, aux _, aux _, aux _⟩

/-- A file modified just past the year 2262. -/
def farFuture : Tree ObjectId :=
  [(ascii "f", ⟨.file [], .posix ⟨0o100644, some 0, 0, 0, 0, 2 ^ 63⟩⟩)]

/-- Without the range hypothesis the round trip is false: a modification time just past the
year 2262 silently comes back as one in 1677. -/
theorem tree_round_trip_false_out_of_range :
    decTree (encTree farFuture) =
      some ([(ascii "f", ⟨.file [], .posix ⟨0o100644, some 0, 0, 0, 0, -2 ^ 63⟩⟩)], []) := by
  decide +kernel

/-- The checked-in reference file `tests/references/tree.stability`. -/
def reference : Bytes :=
  [0xa2, 0x6c, 0x55, 0x6e, 0x69, 0x78, 0x46, 0x69, 0x6c, 0x65, 0x4e, 0x6f, 0x64, 0x65, 0xbf, 0x66,
   0x63, 0x68, 0x75, 0x6e, 0x6b, 0x73, 0x83, 0x58, 0x1c, 0x32, 0xab, 0xc3, 0x7e, 0xf4, 0x60,
   0xdb, 0x38, 0x54, 0x7e, 0x7c, 0x00, 0x4f, 0x01, 0x1a, 0x5a, 0xa1, 0x88, 0x16, 0xc2, 0x9b,
   0x3a, 0x61, 0x99, 0x93, 0xb0, 0x1c, 0x6c, 0x58, 0x1c, 0xef, 0xc1, 0x40, 0x81, 0xac, 0x2b,
   0xd7, 0xb7, 0x14, 0x0f, 0x62, 0xbd, 0x33, 0xac, 0x19, 0xf3, 0xd4, 0x02, 0x5a, 0xcc, 0xbb,
   0xfe, 0x24, 0x80, 0xc5, 0x45, 0xf4, 0x21, 0x58, 0x1c, 0x9a, 0xce, 0xa7, 0x8a, 0xd4, 0xd2,
   0x65, 0xfc, 0x24, 0x0b, 0xa4, 0xd1, 0xe5, 0x88, 0x65, 0xb3, 0x7a, 0x93, 0x1c, 0xfe, 0x2f,
   0xff, 0x13, 0xee, 0xd3, 0x14, 0xab, 0x2f, 0x68, 0x6d, 0x65, 0x74, 0x61, 0x64, 0x61, 0x74,
   0x61, 0xa7, 0x64, 0x74, 0x79, 0x70, 0x65, 0x65, 0x70, 0x6f, 0x73, 0x69, 0x78, 0x64, 0x6d,
   0x6f, 0x64, 0x65, 0x19, 0x01, 0xa4, 0x64, 0x73, 0x69, 0x7a, 0x65, 0x18, 0x2a, 0x63, 0x75,
   0x69, 0x64, 0x19, 0x04, 0xd2, 0x63, 0x67, 0x69, 0x64, 0x19, 0x16, 0x2e, 0x65, 0x61, 0x74,
   0x69, 0x6d, 0x65, 0x1b, 0x16, 0x42, 0xb1, 0x5b, 0xce, 0x41, 0xbf, 0x7f, 0x65, 0x6d, 0x74,
   0x69, 0x6d, 0x65, 0x1b, 0x16, 0x42, 0xb1, 0x5b, 0xc6, 0xe7, 0xdd, 0xfc, 0xff, 0x6e, 0x57,
   0x69, 0x6e, 0x64, 0x6f, 0x77, 0x73, 0x44, 0x69, 0x72, 0x4e, 0x6f, 0x64, 0x65, 0xbf, 0x64,
   0x74, 0x72, 0x65, 0x65, 0x58, 0x1c, 0xc6, 0x8b, 0x6c, 0x61, 0x1d, 0x35, 0xfa, 0x4f, 0xb0,
   0x3a, 0x35, 0x75, 0xe2, 0xc4, 0x53, 0x9f, 0xfc, 0xd4, 0x10, 0x56, 0xb1, 0x03, 0xb7, 0xda,
   0x3e, 0x5c, 0xdf, 0x4e, 0x68, 0x6d, 0x65, 0x74, 0x61, 0x64, 0x61, 0x74, 0x61, 0xa5, 0x64,
   0x74, 0x79, 0x70, 0x65, 0x67, 0x77, 0x69, 0x6e, 0x64, 0x6f, 0x77, 0x73, 0x6a, 0x61, 0x74,
   0x74, 0x72, 0x69, 0x62, 0x75, 0x74, 0x65, 0x73, 0x1a, 0xde, 0xad, 0xbe, 0xef, 0x6d, 0x63,
   0x72, 0x65, 0x61, 0x74, 0x69, 0x6f, 0x6e, 0x5f, 0x74, 0x69, 0x6d, 0x65, 0xf6, 0x6b, 0x61,
   0x63, 0x63, 0x65, 0x73, 0x73, 0x5f, 0x74, 0x69, 0x6d, 0x65, 0x1b, 0x16, 0x42, 0x6b, 0x8b,
   0xda, 0x1b, 0x2b, 0x1c, 0x6a, 0x77, 0x72, 0x69, 0x74, 0x65, 0x5f, 0x74, 0x69, 0x6d, 0x65,
   0x1b, 0x16, 0x40, 0xc9, 0x12, 0x43, 0x9a, 0xa0, 0x33, 0xff]

/-- The reference file decodes to a POSIX file and a Windows directory, and encodes back to
itself. -/
example : (decTree reference).map (fun p => (p.1.map fun q => (q.1, q.2.contents.kind, q.2.md.size),
        p.2)) = some ([(ascii "UnixFileNode", .file, some 42), (ascii "WindowsDirNode", .dir, none)], []) ∧
    (decTree reference).map (fun p => encTree p.1) = some reference := by
  decide +kernel

/-- A concrete tree meeting the hypothesis: a file, a symlink and a directory. -/
example : OkTree (Id := ObjectId)
    [(ascii "a", ⟨.file [⟨List.replicate 28 1, by decide⟩], .posix ⟨0o100644, some 3, 0, 0, -1, 1⟩⟩),
     (ascii "b", ⟨.link (ascii "a"), .posix ⟨0o120777, none, 0, 0, 0, 0⟩⟩),
     (ascii "c", ⟨.dir ⟨List.replicate 28 2, by decide⟩, .windows ⟨16, none, none, some 1, none⟩⟩)] where
  sorted := by unfold BMap.Sorted; decide +kernel
  len := by simp
  names := by simp [ascii]
  contents := by simp [OkContents, ascii]
  mds := by simp [OkMeta, InI64]

/-- How often a map names a field. -/
def times (k : String) (fs : List (Bytes × Cbor)) : Nat := (fs.filter (fun p => p.1 = ascii k)).length

theorem field_times {k : String} {fs : List (Bytes × Cbor)} {v : Cbor} (h : field k fs = some v) : times k fs = 1 := by
  unfold field field? at h
  unfold times
  split at h
  · rename_i h1
    split at h1 <;> simp_all
  · cases h

/-- An entry of a tree that is read says what it is exactly once: one that names its metadata twice, or its contents,
is refused rather than read in one of two ways. -/
theorem said_once {v : Cbor} {n : Node ObjectId} (h : asNode v = some n) :
    ∃ fs, asFields v = some fs ∧ times "metadata" fs = 1 ∧
      times (match n.contents with | .file _ => "chunks" | .dir _ => "tree" | .link _ => "symlink") fs = 1 := by
  simp only [asNode, Option.bind_eq_bind, Option.bind_eq_some_iff, pure, Option.some.injEq] at h
  obtain ⟨fs, h1, m, h2, w, h3, c, h4, rfl⟩ := h
  refine ⟨fs, h1, field_times h2, ?_⟩
  have key : ∀ {a b : Option (Contents ObjectId)} {c}, (a <|> b) = some c → a = some c ∨ b = some c := by
    intro a b c h
    cases a with
    | none => exact .inr h
    | some a => exact .inl h
  unfold asContents at h4
  rcases key h4 with h5 | h5
  on_goal 2 => rcases key h5 with h5 | h5
  all_goals
    simp only [Option.bind_eq_bind, Option.bind_eq_some_iff, pure, Option.some.injEq] at h5
  · obtain ⟨_, hv, _, _, _, _, rfl⟩ := h5
    exact field_times hv
  · obtain ⟨_, hv, _, _, rfl⟩ := h5
    exact field_times hv
  · obtain ⟨_, hv, _, _, rfl⟩ := h5
    exact field_times hv

/-- A link whose entry is read. -/
example : ∃ v n, asNode v = some n ∧ n.contents.kind = .link := by
  refine ⟨.map [.text (ascii "symlink"), .text (ascii "x"), .text (ascii "metadata"), .map [
    .text (ascii "type"), .text (ascii "windows"), .text (ascii "attributes"), .uint 0,
    .text (ascii "creation_time"), .null, .text (ascii "access_time"), .null, .text (ascii "write_time"), .null]], _, rfl, rfl⟩

end Backpak.C04
