import Verif.Model.Times
import Verif.Lemmas.DemoTimes
import Verif.Props.C92

/-!
# C93: times on the way from the system to a snapshot and back

That everything that can be backed up gets its modification time back is not so: see `survives_iff` and the
theorems after it. What is so: from 1970 to April 2262 it does.
-/

namespace Backpak.C93

open Spec Serde

/-- What the system reports: nanoseconds from 0 up to a second, and numbers that fit their fields. -/
structure OkStat (s : Stat) : Prop where
  access : 0 ≤ s.atime.nsec ∧ s.atime.nsec < 10 ^ 9
  modification : 0 ≤ s.mtime.nsec ∧ s.mtime.nsec < 10 ^ 9
  mode : s.mode < 2 ^ 32
  size : s.size < 2 ^ 64
  uid : s.uid < 2 ^ 32
  gid : s.gid < 2 ^ 32

/-- From the year -9999 to the year 9999. -/
def Dated (t : Timespec) : Prop := -377705023201 ≤ t.sec ∧ t.sec ≤ 253402207200

theorem timestamp_eq {t : Timespec} (h : 0 ≤ t.nsec ∧ t.nsec < 10 ^ 9) (hd : Dated t) :
    timestamp t.sec t.nsec = some t.nanos := by
  unfold Dated at hd
  unfold timestamp Timespec.nanos
  rw [if_neg (by omega), if_neg (by omega)]

theorem timestamp_none {t : Timespec} (hd : ¬ Dated t) : timestamp t.sec t.nsec = none := by
  unfold Dated at hd
  unfold timestamp
  rw [if_pos (by omega)]

/-- What a backup takes from what the system reports, if both times are from -9999 to 9999. -/
theorem read_ok {s : Stat} (h : OkStat s) (ha : Dated s.atime) (hm : Dated s.mtime) :
    getMetadata s = .ok (.posix ⟨s.mode, if posixKind s.mode = .file then some s.size else none, s.uid, s.gid,
      s.atime.nanos, s.mtime.nanos⟩) := by
  unfold getMetadata
  rw [timestamp_eq h.access ha, timestamp_eq h.modification hm]

/-- A file from before -9999 or after 9999, or last read then, makes a backup panic. -/
theorem read_panics {s : Stat} (h : ¬ (Dated s.atime ∧ Dated s.mtime)) : ∃ m, getMetadata s = .error (.panic m) := by
  unfold getMetadata
  by_cases ha : Dated s.atime
  · have hm : ¬ Dated s.mtime := fun hm => h ⟨ha, hm⟩
    rw [timestamp_none hm]
    split
    · exact ⟨_, rfl⟩
    · exact ⟨_, rfl⟩
  · rw [timestamp_none ha]
    exact ⟨_, rfl⟩

/-- The times of metadata, with what does not fit in 64 bits cut off. -/
def Cut (m m' : PosixMeta) : Prop :=
  m'.mode = m.mode ∧ m'.size = m.size ∧ m'.uid = m.uid ∧ m'.gid = m.gid ∧
  InI64 m'.atime ∧ InI64 m'.mtime ∧ (2 ^ 64 : Int) ∣ m.atime - m'.atime ∧ (2 ^ 64 : Int) ∣ m.mtime - m'.mtime

theorem asI64_in (t : Int) : InI64 (asI64 t) := by
  unfold InI64 asI64
  omega

theorem asI64_same (t : Int) : (2 ^ 64 : Int) ∣ t - asI64 t := by
  unfold asI64
  omega

theorem same_iff {t t' : Int} (h : InI64 t') (hd : (2 ^ 64 : Int) ∣ t - t') : t' = t ↔ InI64 t := by
  unfold InI64 at *
  constructor
  · rintro rfl; exact h
  · intro ht; omega

/-- A node that a backup stores comes back with its times cut to 64 bits and is otherwise as it was. -/
theorem comes_back {n : Name} {c : Contents ObjectId} {m : PosixMeta} (hn : n.length < 2 ^ 64) (hc : OkContents c)
    (hm : m.mode < 2 ^ 32 ∧ m.uid < 2 ^ 32 ∧ m.gid < 2 ^ 32 ∧ ∀ k, m.size = some k → k < 2 ^ 64) :
    ∃ m', decTree (encTree [(n, ⟨c, .posix m⟩)]) = some ([(n, ⟨c, .posix m'⟩)], []) ∧ Cut m m' := by
  let t : Tree ObjectId := [(n, ⟨c, .posix m⟩)]
  have hmd : ∀ p ∈ t, OkMetaNoTime p.2.md := by
    intro p hp
    rw [List.mem_singleton.mp hp]
    exact hm
  have ht : decTree (encTree t ++ []) = some (treeI64 t, []) := by
    refine read_enc _ _ _ _ (ok_tree _ t (by simp [t]) ?_ ?_ hmd) (asTree_tree' t (by simp [t, BMap.Sorted, BMap.keys]) hmd)
    · intro p hp
      rw [List.mem_singleton.mp hp]
      exact hn
    · intro p hp
      rw [List.mem_singleton.mp hp]
      exact hc
  rw [List.append_nil] at ht
  exact ⟨_, ht, rfl, rfl, rfl, rfl, asI64_in _, asI64_in _, asI64_same _, asI64_same _⟩

/-! ## Setting them -/

variable {C : Codec ObjectId} {R : Repo ObjectId} {src : Source ObjectId} {cenv : CacheEnv ObjectId} {env : FsEnv}
  {args : RestoreArgs} {p : Path} {d : Disk ObjectId} {o : Obj}

theorem valid_iff (t : Int) : (toTimespec t).valid = true ↔ 0 ≤ t ∨ 10 ^ 9 ∣ t := by
  refine ⟨fun h => ?_, valid_toTimespec⟩
  unfold toTimespec Timespec.valid at h
  rw [Bool.and_eq_true, decide_eq_true_iff, decide_eq_true_iff] at h
  by_cases ht : 0 ≤ t
  · exact .inl ht
  · refine .inr (Int.dvd_of_tmod_eq_zero (le_antisymm ?_ h.1))
    have := Int.tmod_nonneg (10 ^ 9) (a := -t) (by omega)
    rw [Int.neg_tmod] at this
    omega

theorem datable_iff (m : PosixMeta) : Datable (.posix m) ↔ (0 ≤ m.atime ∨ 10 ^ 9 ∣ m.atime) ∧ (0 ≤ m.mtime ∨ 10 ^ 9 ∣ m.mtime) := by
  constructor
  · intro h
    exact ⟨h _ (.inl rfl), h _ (.inr rfl)⟩
  · rintro ⟨h1, h2⟩ t (h | h) <;> cases h
    · exact h1
    · exact h2

theorem stamps_iff (m : PosixMeta) :
    Stamps.valid ⟨some (toTimespec m.atime), some (toTimespec m.mtime)⟩ = true ↔ Datable (.posix m) := by
  rw [datable_iff, ← valid_iff, ← valid_iff, ← Bool.and_eq_true]
  rfl

/-- Calls one of which sets times that the system refuses do not all work. -/
theorem refused {Id : Type} [LinearOrder Id] {H : Bytes → Id} {src : Source Id} {cenv : CacheEnv Id} {ops : List (SysOp Id)} {p : Path} {v : Stamps}
    (hv : v.valid = false) (h : .times p v ∈ ops) (d : Disk Id) : ∃ d' e, calls H src cenv env ops d = (d', some e) := by
  induction ops generalizing d with
  | nil => cases h
  | cons op ops ih =>
    unfold calls
    split
    · exact ⟨_, _, rfl⟩
    · rename_i d' he
      rcases List.mem_cons.mp h with rfl | h
      · unfold call at he
        rw [if_pos (by simp [SysOp.refused, hv])] at he
        cases he
      · exact ih h d'

/-- Whether the metadata of something that is there can be set, with `--times`: only if both times are from 1970 on
or of whole seconds. If so it has the modification time it should have. -/
theorem set_iff (ht : args.times = true) {c : Contents ObjectId} {m : PosixMeta} (hk : posixKind m.mode = c.kind)
    (hit : (∃ t, o.item = .link t) ↔ c.kind = .link) (hr : d.reader = ReaderState.new) (hin : Enter d.fs p)
    (hp : d.fs p = some o) :
    ∃ ops, metaOps args p ⟨c, .posix m⟩ = .ok ops ∧
      ((∃ d', calls C.hash src cenv env ops d = (d', none)) ↔ Datable (.posix m)) ∧
      ∀ d', calls C.hash src cenv env ops d = (d', none) → (d'.fs p).map Obj.mtime = some m.mtime := by
  by_cases hd : Datable (.posix m)
  · obtain ⟨ops, h1, h2⟩ := ran_meta (C := C) (R := ⟨[], [], []⟩) (src := src) (cenv := cenv) (env := env) (args := args)
      (p := p) (o := o) (y := ⟨c, .posix m⟩) hk (fun _ => ⟨_, rfl⟩) (fun _ => hd) hit
    obtain ⟨d', o', g1, _, g3, _, _, _, g4, _⟩ := h2 d (by rw [hr]; exact C33.settled_new) hin hp
    refine ⟨ops, h1, ⟨fun _ => hd, fun _ => ⟨d', g1⟩⟩, fun d'' h => ?_⟩
    have : d'' = d' := congrArg Prod.fst (h.symm.trans g1)
    rw [this, g3, Option.map_some, g4 ht m rfl]
  · have hv : Stamps.valid ⟨some (toTimespec m.atime), some (toTimespec m.mtime)⟩ = false := by
      rw [Bool.eq_false_iff, Ne, stamps_iff]
      exact hd
    obtain ⟨ops, h1⟩ : ∃ ops, metaOps args p (⟨c, .posix m⟩ : Node ObjectId) = .ok ops := by
      unfold metaOps
      dsimp only
      split
      · rw [kind_ok (x := (⟨c, .posix m⟩ : Node ObjectId)) hk]
        dsimp only
        split <;> first | exact ⟨_, rfl⟩ | (rename_i h; cases h)
      · exact ⟨_, rfl⟩
    obtain ⟨l1, l2, h2, _⟩ := Timely.metaOps_settles ht (x := ⟨c, .posix m⟩) rfl h1
    have hno : ∀ d', calls C.hash src cenv env ops d ≠ (d', none) := by
      intro d' h
      obtain ⟨_, _, h3⟩ := refused (H := C.hash) (src := src) (cenv := cenv) (env := env) (ops := ops) hv
        (by rw [h2]; exact List.mem_append_right _ List.mem_cons_self) d
      rw [h3] at h
      cases h
    exact ⟨ops, h1, ⟨fun ⟨d', h⟩ => absurd h (hno d'), fun h => absurd h hd⟩, fun d' h => absurd h (hno d')⟩

/-! ## All the way -/

/-- The modification time of what is at `p` after a node named `n` with contents `c`, of which the system reports `s`,
has been stored, read back and used to set the metadata of `p`; none if something on the way fails. -/
def afterwards (C : Codec ObjectId) (src : Source ObjectId) (cenv : CacheEnv ObjectId) (env : FsEnv) (args : RestoreArgs)
    (s : Stat) (n : Name) (c : Contents ObjectId) (p : Path) (d : Disk ObjectId) : Option Int :=
  match getMetadata s with
  | .error _ => none
  | .ok md =>
    match decTree (encTree [(n, ⟨c, md⟩)]) with
    | some ([(_, x)], _) =>
      match metaOps args p x with
      | .error _ => none
      | .ok ops =>
        match calls C.hash src cenv env ops d with
        | (d', none) => (d'.fs p).map Obj.mtime
        | (_, some _) => none
    | _ => none

section

variable {s : Stat} {n : Name} {c : Contents ObjectId}

theorem afterwards_eq (h : OkStat s) (hn : n.length < 2 ^ 64) (hc : OkContents c) (hk : posixKind s.mode = c.kind)
    (ht : args.times = true) (hit : (∃ t, o.item = .link t) ↔ c.kind = .link) (hr : d.reader = ReaderState.new)
    (hin : Enter d.fs p) (hp : d.fs p = some o) (ha : Dated s.atime) (hm : Dated s.mtime) :
    ∃ a m, InI64 a ∧ InI64 m ∧ (2 ^ 64 : Int) ∣ s.atime.nanos - a ∧ (2 ^ 64 : Int) ∣ s.mtime.nanos - m ∧
      ((0 ≤ a ∨ 10 ^ 9 ∣ a) ∧ (0 ≤ m ∨ 10 ^ 9 ∣ m) → afterwards C src cenv env args s n c p d = some m) ∧
      (¬ ((0 ≤ a ∨ 10 ^ 9 ∣ a) ∧ (0 ≤ m ∨ 10 ^ 9 ∣ m)) → afterwards C src cenv env args s n c p d = none) := by
  obtain ⟨m', h1, h2⟩ := comes_back (n := n) (c := c) (m := ⟨s.mode, if posixKind s.mode = .file then some s.size else none,
    s.uid, s.gid, s.atime.nanos, s.mtime.nanos⟩) hn hc ⟨h.mode, h.uid, h.gid, by
      intro k hk
      dsimp only at hk
      split at hk
      · cases hk; exact h.size
      · cases hk⟩
  obtain ⟨ops, h3, h4, h5⟩ := set_iff (C := C) (src := src) (cenv := cenv) (env := env) ht (c := c) (m := m')
    (by rw [h2.1]; exact hk) hit hr hin hp
  rw [datable_iff] at h4
  refine ⟨m'.atime, m'.mtime, h2.2.2.2.2.1, h2.2.2.2.2.2.1, h2.2.2.2.2.2.2.1, h2.2.2.2.2.2.2.2, fun hd => ?_, fun hd => ?_⟩
  · obtain ⟨d', h6⟩ := h4.mpr hd
    unfold afterwards
    simp only [read_ok h ha hm, h1, h3, h6]
    exact h5 d' h6
  · unfold afterwards
    simp only [read_ok h ha hm, h1, h3]
    split
    · rename_i d' h6
      exact absurd (h4.mp ⟨d', h6⟩) hd
    · rfl

theorem dated_of_in {t : Timespec} (h : 0 ≤ t.nsec ∧ t.nsec < 10 ^ 9) (hi : InI64 t.nanos) : Dated t := by
  unfold InI64 Timespec.nanos at hi
  unfold Dated
  omega

/-- When a modification time survives a backup and a restore with `--times`: it is within 64 bits of nanoseconds (1677 to 2262)
and from 1970 on or of whole seconds, the backup did not panic because of the access time, and the access time can be
set, be it the right one or not. -/
theorem survives_iff (h : OkStat s) (hn : n.length < 2 ^ 64) (hc : OkContents c) (hk : posixKind s.mode = c.kind)
    (ht : args.times = true) (hit : (∃ t, o.item = .link t) ↔ c.kind = .link) (hr : d.reader = ReaderState.new)
    (hin : Enter d.fs p) (hp : d.fs p = some o) :
    afterwards C src cenv env args s n c p d = some s.mtime.nanos ↔
      InI64 s.mtime.nanos ∧ (0 ≤ s.mtime.nanos ∨ s.mtime.nsec = 0) ∧ Dated s.atime ∧
      ∃ a, InI64 a ∧ (2 ^ 64 : Int) ∣ s.atime.nanos - a ∧ (0 ≤ a ∨ 10 ^ 9 ∣ a) := by
  have hz : s.mtime.nsec = 0 ↔ 10 ^ 9 ∣ s.mtime.nanos := by
    have := h.modification
    unfold Timespec.nanos
    omega
  rw [hz]
  by_cases hd : Dated s.atime ∧ Dated s.mtime
  · obtain ⟨a, m, i1, i2, d1, d2, g1, g2⟩ := afterwards_eq (C := C) (src := src) (cenv := cenv) (env := env) h hn hc hk ht hit hr hin hp hd.1 hd.2
    have he := same_iff i2 d2
    constructor
    · intro hs
      by_cases hg : (0 ≤ a ∨ 10 ^ 9 ∣ a) ∧ (0 ≤ m ∨ 10 ^ 9 ∣ m)
      · rw [g1 hg] at hs
        have hs : m = s.mtime.nanos := Option.some.inj hs
        exact ⟨he.mp hs, hs ▸ hg.2, hd.1, a, i1, d1, hg.1⟩
      · rw [g2 hg] at hs
        cases hs
    · rintro ⟨j1, j2, _, a', k1, k2, k3⟩
      have hm := he.mpr j1
      have haa : a' = a := by
        unfold InI64 at i1 k1
        omega
      subst haa
      rw [g1 ⟨k3, hm ▸ j2⟩, hm]
  · constructor
    · intro hs
      obtain ⟨_, hp⟩ := read_panics hd
      unfold afterwards at hs
      rw [hp] at hs
      cases hs
    · rintro ⟨j1, _, j3, _⟩
      exact absurd ⟨j3, dated_of_in h.modification j1⟩ hd

/-- From 1970 to April 2262 a modification time survives. Missing: what is before and after. -/
theorem survives_partial (h : OkStat s) (hn : n.length < 2 ^ 64) (hc : OkContents c) (hk : posixKind s.mode = c.kind)
    (ht : args.times = true) (hit : (∃ t, o.item = .link t) ↔ c.kind = .link) (hr : d.reader = ReaderState.new)
    (hin : Enter d.fs p) (hp : d.fs p = some o) (ha : 0 ≤ s.atime.nanos ∧ s.atime.nanos < 2 ^ 63)
    (hm : 0 ≤ s.mtime.nanos ∧ s.mtime.nanos < 2 ^ 63) :
    afterwards C src cenv env args s n c p d = some s.mtime.nanos := by
  have ia : InI64 s.atime.nanos := by unfold InI64; omega
  refine (survives_iff h hn hc hk ht hit hr hin hp).mpr ⟨by unfold InI64; omega, .inl hm.1, dated_of_in h.access ia, _, ia, ?_, .inl ha.1⟩
  simp

/-- Before 1970, a time that is not of whole seconds cannot be set. -/
theorem before_1970 (h : OkStat s) (hn : n.length < 2 ^ 64) (hc : OkContents c) (hk : posixKind s.mode = c.kind)
    (ht : args.times = true) (hit : (∃ t, o.item = .link t) ↔ c.kind = .link) (hr : d.reader = ReaderState.new)
    (hin : Enter d.fs p) (hp : d.fs p = some o) (hi : InI64 s.mtime.nanos) (hs : s.mtime.sec < 0) (hz : s.mtime.nsec ≠ 0) :
    afterwards C src cenv env args s n c p d = none := by
  by_cases hd : Dated s.atime ∧ Dated s.mtime
  · obtain ⟨a, m, i1, i2, d1, d2, g1, g2⟩ := afterwards_eq (C := C) (src := src) (cenv := cenv) (env := env) h hn hc hk ht hit hr hin hp hd.1 hd.2
    refine g2 ?_
    rw [(same_iff i2 d2).mpr hi]
    have := h.modification
    unfold Timespec.nanos
    omega
  · obtain ⟨_, hp⟩ := read_panics hd
    unfold afterwards
    rw [hp]

end

/-- A file modified on 2020-01-01 at noon and half a second, and where it is restored to. -/
def stat2020 : Stat := ⟨0o100644, 3, 0, 0, ⟨1577880000, 0⟩, ⟨1577880000, 500000000⟩⟩

theorem enterF : Enter Demo.fsO [[], [102]] := Demo.restoreButO.enter _ (List.mem_singleton.mpr rfl)

example : afterwards Demo.codec (Check.opened Demo.repoO) Demo.env Demo.fsEnv7 (Demo.argsH true) stat2020 [102] (.file [])
    [[], [102]] Demo.diskO = some 1577880000500000000 :=
  survives_partial (o := Demo.objOf (Demo.fileMd 0 8) (.file [])) ⟨by decide, by decide, by decide, by decide, by decide, by decide⟩
    (by decide) (by simp [OkContents]) (by decide) rfl ⟨(fun ⟨_, h⟩ => by cases h), (fun h => by cases h)⟩ rfl enterF rfl
    (by decide) (by decide)

/-- The same in 1969. -/
def stat1969 : Stat := ⟨0o100644, 3, 0, 0, ⟨1577880000, 0⟩, ⟨-15768000, 500000000⟩⟩

example : afterwards Demo.codec (Check.opened Demo.repoO) Demo.env Demo.fsEnv7 (Demo.argsH true) stat1969 [102] (.file [])
    [[], [102]] Demo.diskO = none :=
  before_1970 (o := Demo.objOf (Demo.fileMd 0 8) (.file [])) ⟨by decide, by decide, by decide, by decide, by decide, by decide⟩
    (by decide) (by simp [OkContents]) (by decide) rfl ⟨(fun ⟨_, h⟩ => by cases h), (fun h => by cases h)⟩ rfl enterF rfl
    (by unfold InI64; decide) (by decide) (by decide)

/-- The same in 2300: it comes back as one in 1715. -/
theorem wrong_time : afterwards Demo.codec (Check.opened Demo.repoO) Demo.env Demo.fsEnv7 (Demo.argsH true)
    ⟨0o100644, 3, 0, 0, ⟨1577880000, 0⟩, ⟨10413792000, 709551616⟩⟩ [102] (.file []) [[], [102]] Demo.diskO =
    some (-8032952073000000000) := by
  decide +kernel

/-! ## A whole restore -/

section

variable {Id : Type} [LinearOrder Id] {C : Codec Id} {R : Repo Id} {src : Source Id} {cut : Bytes → Nat}
  {look : Look} {dangling : Path → Bool} {args : RestoreArgs} {s : Snapshot Id} {d2 : Dir Bytes}
  {cenv : CacheEnv Id}

/-- If a snapshot has a file or directory with a time before 1970 that is not of whole seconds, and it is not there or has
other metadata, then a restore with `--times` fails. So it is with links that are there and have other metadata. -/
theorem restore_fails (he : C33.EnvOk cenv) (hS : Sound C R) (ho : Opens R src) {d : Disk Id}
    (h : RestoreBut C R cut look dangling args s d2 d.fs) (hw : args.dryRun = false) (ht : args.times = true)
    {ops : List (SysOp Id)} {lines : List (DiffLine Id)} (hrun : restore C src cut look dangling args s = .ok (ops, lines))
    {p q : Path} (hp : p ∈ s.paths) {m : PosixMeta} {l : Option (Leaf Bytes)}
    (hq : entry d2 (lastName p :: q) = some (.posix m, l)) (hl : l ≠ some .other)
    (hm : ∃ t, (t = m.atime ∨ t = m.mtime) ∧ t < 0 ∧ ¬ 10 ^ 9 ∣ t)
    (hc : ((∀ t, l ≠ some (.link t)) ∧ view (look (dest args s p)) q = none) ∨
      ∃ md', md' ≠ .posix m ∧ view (look (dest args s p)) q = some (md', l)) :
    ∃ d' e, calls C.hash src cenv env ops d = (d', some e) := by
  obtain ⟨g1, _, _⟩ := Timely.restore_timed ⟨C, R, src, cenv, env, args, he, hS, ho⟩ h ht hw hrun hp
  have hf : Timely.Fresh (view (look (dest args s p)) q) (.posix m) l := by
    rcases hc with ⟨h1, h2⟩ | ⟨md', h1, h2⟩
    · rw [h2]
      cases l with
      | none => simp [Timely.Fresh]
      | some l =>
        cases l with
        | file x => simp [Timely.Fresh]
        | link t => exact absurd rfl (h1 t)
        | other => exact absurd rfl hl
    · rw [h2]
      cases l with
      | none =>
        intro h
        injection h with h
        injection h with h
        exact h1 h
      | some l =>
        cases l with
        | file x =>
          refine ⟨fun _ h => ?_, fun _ h => ?_⟩
          · injection h with h; injection h with _ h; cases h
          · injection h with h; injection h with h; exact h1 h
        | link t => exact ⟨md', h1, rfl⟩
        | other => exact absurd rfl hl
  obtain ⟨l1, l2, e, _⟩ := g1 q m l hq hf
  refine refused (p := dest args s p ++ q) (v := ⟨some (toTimespec m.atime), some (toTimespec m.mtime)⟩) ?_
    (by rw [e]; exact List.mem_append_right _ List.mem_cons_self) d
  rw [Bool.eq_false_iff, Ne, stamps_iff, datable_iff]
  rintro ⟨k1, k2⟩
  obtain ⟨t, rfl | rfl, h1, h2⟩ := hm
  · exact k1.elim (fun h => by omega) h2
  · exact k2.elim (fun h => by omega) h2

end

/-- A snapshot of an empty file last written in the last nanosecond of 1969 cannot be restored with its time. -/
theorem old_file : ∃ ops lines d' e, restore Demo.codec (Check.opened Demo.repoO) Demo.cut Demo.lookO (fun _ => false)
      (Demo.argsH true) Demo.snapO = .ok (ops, lines) ∧
    calls Demo.codec.hash (Check.opened Demo.repoO) Demo.env Demo.fsEnv7 ops Demo.diskO = (d', some e) := by
  have hok : (restore Demo.codec (Check.opened Demo.repoO) Demo.cut Demo.lookO (fun _ => false)
      (Demo.argsH true) Demo.snapO).isOk = true := by decide +kernel
  cases hr : restore Demo.codec (Check.opened Demo.repoO) Demo.cut Demo.lookO (fun _ => false)
      (Demo.argsH true) Demo.snapO with
  | error e => rw [hr] at hok; cases hok
  | ok r =>
    obtain ⟨ops, lines⟩ := r
    obtain ⟨d', e, h⟩ := restore_fails (env := Demo.fsEnv7) Demo.env_ok Demo.healthyO.sound (Check.opened_opens Demo.healthyO)
      (d := Demo.diskO) Demo.restoreButO rfl rfl hr (p := [[], [102]]) (q := []) (List.mem_singleton.mpr rfl)
      (m := ⟨0o100644, some 0, 0, 0, 0, -1⟩) (l := some (.file [])) rfl (by simp) ⟨-1, .inr rfl, by decide, by decide⟩
      (.inr ⟨Demo.fileMd 0 8, by decide, rfl⟩)
    exact ⟨ops, lines, d', e, rfl, h⟩

/-! ## Unchanged files -/

/-- A file that has not changed since it was backed up is taken for unchanged exactly if its modification time is within
64 bits of nanoseconds. -/
theorem unchanged_iff {n : Name} {c : Contents ObjectId} {m : PosixMeta} (hn : n.length < 2 ^ 64) (hc : OkContents c)
    (hm : m.mode < 2 ^ 32 ∧ m.uid < 2 ^ 32 ∧ m.gid < 2 ^ 32 ∧ ∀ k, m.size = some k → k < 2 ^ 64)
    (hk : posixKind m.mode = .file) (hkc : c.kind = .file) :
    ∃ x, decTree (encTree [(n, ⟨c, .posix m⟩)]) = some ([(n, x)], []) ∧
      (InI64 m.mtime → fileChanged (.posix m) (some x) = .ok false) ∧
      (¬ InI64 m.mtime → fileChanged (.posix m) (some x) = .ok true) := by
  obtain ⟨m', h1, e1, e2, _, _, _, h2, _, h3⟩ := comes_back hn hc hm
  refine ⟨_, h1, ?_⟩
  have he := same_iff h2 h3
  unfold fileChanged
  have hk' : (Meta.posix m).kind = .file := hk
  have hkx : (⟨c, .posix m'⟩ : Node ObjectId).kind = .ok .file := by
    rw [kind_ok (x := (⟨c, .posix m'⟩ : Node ObjectId)) (by rw [hkc]; show posixKind m'.mode = _; rw [e1, hk])]
    exact congrArg _ hkc
  rw [if_neg (by rw [hk']; simp)]
  simp only [hkx, hk', Meta.mtime, Meta.size, e2]
  refine ⟨fun hi => ?_, fun hi => ?_⟩
  · simp [he.mpr hi]
  · have : m.mtime ≠ m'.mtime := fun h => hi (he.mp h.symm)
    simp [this]

example : (∀ x, decTree (encTree [([102], ⟨.file [], .posix ⟨0o100644, some 0, 0, 0, 0, 2 ^ 63⟩⟩)]) = some ([([102], x)], []) →
    fileChanged (.posix ⟨0o100644, some 0, 0, 0, 0, 2 ^ 63⟩) (some x) = .ok true) := by
  intro x hx
  obtain ⟨x', h1, _, h2⟩ := unchanged_iff (n := [102]) (c := .file []) (m := ⟨0o100644, some 0, 0, 0, 0, 2 ^ 63⟩) (by decide)
    (by simp [OkContents]) (by simp) (by decide) rfl
  rw [h1] at hx
  cases hx
  exact h2 (by unfold InI64; decide)

end Backpak.C93
