import Verif.Spec.FileType
import Verif.Props.C93

/-!
# C100: what the system reports of a path is what a snapshot says of it
-/

namespace Backpak.C100

open Spec Serde C93

theorem mask (m : Nat) : m &&& 0o170000 = m / 4096 % 16 * 4096 := by
  apply Nat.eq_of_testBit_eq
  intro i
  have h1 : (0o170000 : Nat) = (2 ^ 4 - 1) * 2 ^ 12 := by decide
  have h2 : m / 4096 % 16 * 4096 = m / 2 ^ 12 % 2 ^ 4 * 2 ^ 12 := by norm_num
  rw [h1, h2, Nat.testBit_and, Nat.testBit_mul_two_pow, Nat.testBit_mul_two_pow, Nat.testBit_two_pow_sub_one,
    Nat.testBit_mod_two_pow, Nat.testBit_div_two_pow]
  by_cases h : 12 ≤ i
  · simp only [h, decide_true, Bool.true_and]
    rw [show i - 12 + 12 = i by omega, Bool.and_comm]
  · simp [h]

/-- The type of a node, given the type of a file. -/
def nodeType : FileType → NodeType
  | .directory => .dir
  | .regular => .file
  | .link => .link
  | .special n => .unsupported (n * 4096)

theorem posixKind_eq (m : Nat) : posixKind m = nodeType (fileType m) := by
  have key : ∀ n < 16, (if n * 4096 = 0o120000 then NodeType.link else if n * 4096 = 0o040000 then .dir
      else if n * 4096 = 0o100000 then .file else .unsupported (n * 4096)) =
      nodeType (match n with | 4 => .directory | 8 => .regular | 10 => .link | n => .special n) := by decide
  unfold posixKind fileType
  simp only [mask]
  exact key _ (Nat.mod_lt _ (by decide))

/-- Nodes tell directories, files and links apart as the system does, and nothing else is taken for one of them. -/
theorem kinds {s : Stat} {md : Meta} (h : getMetadata s = .ok md) :
    (md.kind = .dir ↔ fileType s.mode = .directory) ∧ (md.kind = .file ↔ fileType s.mode = .regular) ∧
    (md.kind = .link ↔ fileType s.mode = .link) ∧
    ((∃ b, md.kind = .unsupported b) ↔ ∃ n, fileType s.mode = .special n) := by
  have hk : md.kind = nodeType (fileType s.mode) := by
    unfold getMetadata at h
    split at h
    · cases h
    · split at h
      · cases h
      · cases h
        exact posixKind_eq s.mode
  rw [hk]
  cases fileType s.mode <;> simp [nodeType]

/-- What a backup can read of a path. -/
structure Reported (s : Stat) : Prop where
  ok : OkStat s
  access : InI64 s.atime.nanos
  modification : InI64 s.mtime.nanos

theorem dated {t : Timespec} (h : 0 ≤ t.nsec ∧ t.nsec < 10 ^ 9) (hi : InI64 t.nanos) : Dated t := by
  unfold InI64 Timespec.nanos at hi
  unfold Dated
  omega

/-- What the system reports, from 1677 to 2262, is what is read back from the repository: mode, owner, group and both times, and
the size of a regular file and of nothing else. -/
theorem stored {s : Stat} {n : Name} {c : Contents ObjectId} (h : Reported s) (hn : n.length < 2 ^ 64) (hc : OkContents c) :
    ∃ md, getMetadata s = .ok md ∧ decTree (encTree [(n, ⟨c, md⟩)]) = some ([(n, ⟨c, md⟩)], []) ∧
      ∃ m, md = .posix m ∧ m.mode = s.mode ∧ m.uid = s.uid ∧ m.gid = s.gid ∧
        m.atime = s.atime.sec * 10 ^ 9 + s.atime.nsec ∧ m.mtime = s.mtime.sec * 10 ^ 9 + s.mtime.nsec ∧
        (fileType s.mode = .regular → m.size = some s.size) ∧ (fileType s.mode ≠ .regular → m.size = none) := by
  refine ⟨_, read_ok h.ok (dated h.ok.access h.access) (dated h.ok.modification h.modification), ?_,
    _, rfl, rfl, rfl, rfl, rfl, rfl, fun hr => ?_, fun hr => ?_⟩
  · obtain ⟨m', h1, e1, e2, e3, e4, i1, i2, d1, d2⟩ := comes_back (n := n) (c := c)
      (m := ⟨s.mode, if posixKind s.mode = .file then some s.size else none, s.uid, s.gid, s.atime.nanos, s.mtime.nanos⟩)
      hn hc ⟨h.ok.mode, h.ok.uid, h.ok.gid, by
        intro k hk
        dsimp only at hk
        split at hk
        · cases hk; exact h.ok.size
        · cases hk⟩
    have e5 := (same_iff i1 d1).mpr h.access
    have e6 := (same_iff i2 d2).mpr h.modification
    rw [h1]
    rcases m' with ⟨a, b, c, d, e, f⟩
    simp only at e1 e2 e3 e4 e5 e6
    rw [e1, e2, e3, e4, e5, e6]
  · exact if_pos (by rw [posixKind_eq, hr]; rfl)
  · refine if_neg (fun hk => hr ?_)
    rw [posixKind_eq] at hk
    revert hk
    cases fileType s.mode <;> simp [nodeType]

/-- A regular file is read again exactly if what was there when the parent was made was not a regular file or had
another size or another modification time. -/
theorem again_iff {s s' : Stat} {n : Name} {c : Contents ObjectId} (h : Reported s) (h' : Reported s') (hn : n.length < 2 ^ 64)
    (hc : OkContents c) (hk : nodeType (fileType s.mode) = c.kind) (hr : fileType s'.mode = .regular) :
    ∃ md md' x, getMetadata s = .ok md ∧ decTree (encTree [(n, ⟨c, md⟩)]) = some ([(n, x)], []) ∧
      getMetadata s' = .ok md' ∧ ∃ b, fileChanged md' (some x) = .ok b ∧
      (b = false ↔ fileType s.mode = .regular ∧ s.size = s'.size ∧ s.mtime.nanos = s'.mtime.nanos) := by
  obtain ⟨md, h1, h2, m, rfl, e1, _, _, _, e5, e6, _⟩ := stored h hn hc
  obtain ⟨md', h1', _, m', rfl, e1', _, _, _, e5', e6', _⟩ := stored (c := c) h' hn hc
  refine ⟨_, _, _, h1, h2, h1', ?_⟩
  have k1 : (Meta.posix m').kind = .file := by
    show posixKind m'.mode = _
    rw [e1', posixKind_eq, hr]; rfl
  have k2 : (⟨c, .posix m⟩ : Node ObjectId).kind = .ok c.kind := by
    unfold Node.kind
    rw [if_pos]
    show posixKind m.mode = _
    rw [e1, posixKind_eq, hk]
  unfold fileChanged
  rw [if_neg (by rw [k1]; simp)]
  simp only [k2, k1]
  by_cases hf : c.kind = .file
  · have hreg : fileType s.mode = .regular := by
      rw [hf] at hk
      revert hk
      cases fileType s.mode <;> simp [nodeType]
    rw [if_neg (by rw [hf]; simp)]
    have z1 : (Meta.posix m).size = some s.size := e6 hreg
    have z2 : (Meta.posix m').size = some s'.size := e6' hr
    have z3 : (Meta.posix m).mtime = some s.mtime.nanos := congrArg some e5
    have z4 : (Meta.posix m').mtime = some s'.mtime.nanos := congrArg some e5'
    rw [z1, z2, z3, z4]
    by_cases hm : s.mtime.nanos = s'.mtime.nanos
    · by_cases hs : s.size = s'.size
      · exact ⟨false, by simp [hm, hs], by simp [hm, hs, hreg]⟩
      · exact ⟨true, by simp [hm, Ne.symm hs], by simp [hs]⟩
    · exact ⟨true, by simp [Ne.symm hm], by simp [hm]⟩
  · refine ⟨true, by rw [if_pos hf], iff_of_false (by simp) (fun hreg => hf ?_)⟩
    rw [← hk, hreg.1]; rfl

/-! ## Examples -/

/-- A file of mode 0640, before 1970, and the same file longer and as a directory. -/
def stat0 : Stat := ⟨0o100640, 5, 1000, 100, ⟨3, 7⟩, ⟨-2, 9⟩⟩
def stat1 : Stat := { stat0 with size := 6 }
def stat2 : Stat := { stat0 with mode := 0o040750 }

theorem reported0 : Reported stat0 :=
  ⟨⟨by decide, by decide, by decide, by decide, by decide, by decide⟩, by unfold InI64; decide, by unfold InI64; decide⟩
theorem reported1 : Reported stat1 :=
  ⟨⟨by decide, by decide, by decide, by decide, by decide, by decide⟩, by unfold InI64; decide, by unfold InI64; decide⟩
theorem reported2 : Reported stat2 :=
  ⟨⟨by decide, by decide, by decide, by decide, by decide, by decide⟩, by unfold InI64; decide, by unfold InI64; decide⟩

example : Reported stat0 ∧ fileType stat0.mode = .regular ∧ OkContents (.file [] : Contents ObjectId) ∧
    (∃ md, getMetadata stat0 = .ok md ∧ md.kind = .file) ∧ (∃ md, getMetadata stat2 = .ok md ∧ md.kind = .dir) ∧
    fileType 0o140755 = .special 12 := by
  refine ⟨reported0, rfl, by simp [OkContents], ?_, ?_, rfl⟩
  · obtain ⟨md, h, _⟩ := stored (n := [102]) (c := .file []) reported0 (by decide) (by simp [OkContents])
    exact ⟨md, h, (kinds h).2.1.mpr rfl⟩
  · obtain ⟨md, h, _⟩ := stored (n := [102]) (c := .file []) reported2 (by decide) (by simp [OkContents])
    exact ⟨md, h, (kinds h).1.mpr rfl⟩

example : (∃ md x md', getMetadata stat0 = .ok md ∧ decTree (encTree [([102], ⟨.file [], md⟩)]) = some ([([102], x)], []) ∧
      getMetadata stat1 = .ok md' ∧ fileChanged md' (some x) = .ok true) ∧
    (∃ md x md', getMetadata stat0 = .ok md ∧ decTree (encTree [([102], ⟨.file [], md⟩)]) = some ([([102], x)], []) ∧
      getMetadata stat0 = .ok md' ∧ fileChanged md' (some x) = .ok false) := by
  constructor
  · obtain ⟨md, md', x, h1, h2, h3, b, h4, h5⟩ := again_iff (n := [102]) (c := .file []) reported0 reported1 (by decide)
      (by simp [OkContents]) rfl rfl
    refine ⟨md, x, md', h1, h2, h3, ?_⟩
    cases b with
    | true => exact h4
    | false => exact absurd (h5.mp rfl).2.1 (by decide)
  · obtain ⟨md, md', x, h1, h2, h3, b, h4, h5⟩ := again_iff (n := [102]) (c := .file []) reported0 reported0 (by decide)
      (by simp [OkContents]) rfl rfl
    refine ⟨md, x, md', h1, h2, h3, ?_⟩
    rw [h5.mpr ⟨rfl, rfl, rfl⟩] at h4
    exact h4

end Backpak.C100
