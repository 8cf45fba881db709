import Verif.Spec.Restore
import Verif.Lemmas.RestoreCalls
import Verif.Lemmas.Diff
import Verif.Lemmas.ReadBack

/-!
# What the calls of a restore do
-/

namespace Backpak

open Spec

variable {Id : Type} [LinearOrder Id] {C : Codec Id} {R : Repo Id} {src : Source Id} {cenv : CacheEnv Id}
  {env : FsEnv} {args : RestoreArgs}

/-- The calls succeed. -/
def Ran (C : Codec Id) (src : Source Id) (cenv : CacheEnv Id) (env : FsEnv) (ops : List (SysOp Id))
    (d d' : Disk Id) : Prop := calls C.hash src cenv env ops d = (d', none)

theorem Ran.nil (d : Disk Id) : Ran C src cenv env [] d d := rfl

theorem Ran.append {a b : List (SysOp Id)} {d d1 d2 : Disk Id} (h : Ran C src cenv env a d d1)
    (h' : Ran C src cenv env b d1 d2) : Ran C src cenv env (a ++ b) d d2 := by
  unfold Ran at *
  induction a generalizing d with
  | nil => simp only [calls, Prod.mk.injEq, and_true] at h; subst h; exact h'
  | cons op a ih =>
    rw [List.cons_append]
    unfold calls at h ⊢
    split at h
    · cases h
    · rename_i d3 he
      try rw [he]
      exact ih h

theorem Ran.cons {op : SysOp Id} {b : List (SysOp Id)} {d d1 d2 : Disk Id} (h : Ran C src cenv env [op] d d1)
    (h' : Ran C src cenv env b d1 d2) : Ran C src cenv env (op :: b) d d2 := Ran.append h h'

theorem _root_.Backpak.Spec.Enter.way {fs : Fs} {p : Path} (h : Enter fs p) : fs.way p = .here := by
  unfold Fs.way
  rw [if_neg, if_pos ⟨h.ne, h.parent⟩]
  simp only [List.any_eq_true, List.mem_range, not_exists, not_and, Bool.not_eq_true]
  exact h.links

theorem isDir_same {o o' : Option Obj} (h : SameButTime o o') : Fs.isDir o' = Fs.isDir o := by
  unfold SameButTime at h
  cases o with
  | none => cases o' with
    | none => rfl
    | some x => cases h
  | some x => cases o' with
    | none => cases h
    | some y =>
      obtain ⟨i, m, t⟩ := x
      obtain ⟨i', m', t'⟩ := y
      simp only [Option.map_some, Option.some.injEq, Prod.mk.injEq] at h
      obtain ⟨rfl, rfl⟩ := h
      cases i' <;> rfl

theorem isLink_same {o o' : Option Obj} (h : SameButTime o o') : Fs.isLink o' = Fs.isLink o := by
  unfold SameButTime at h
  cases o with
  | none => cases o' with
    | none => rfl
    | some x => cases h
  | some x => cases o' with
    | none => cases h
    | some y =>
      obtain ⟨i, m, t⟩ := x
      obtain ⟨i', m', t'⟩ := y
      simp only [Option.map_some, Option.some.injEq, Prod.mk.injEq] at h
      obtain ⟨rfl, rfl⟩ := h
      cases i' <;> rfl

theorem _root_.Backpak.Spec.Enter.mono {fs fs' : Fs} {p : Path} (h : Enter fs p)
    (hs : ∀ k, k < p.length → SameButTime (fs (p.take k)) (fs' (p.take k))) : Enter fs' p := by
  refine ⟨h.ne, fun k hk => by rw [isLink_same (hs k hk)]; exact h.links k hk, ?_⟩
  have hk : p.length - 1 < p.length := Nat.sub_lt (List.length_pos_iff.mpr h.ne) Nat.one_pos
  have := hs _ hk
  rw [← List.dropLast_eq_take] at this
  rw [isDir_same this]
  exact h.parent

theorem not_prefix_take {p : Path} {k : Nat} (hk : k < p.length) : ¬ p <+: p.take k := by
  intro h
  have := h.length_le
  rw [List.length_take] at this
  omega

theorem take_ne {p : Path} {k : Nat} (hk : k < p.length) : p.take k ≠ p := by
  intro h
  have := congrArg List.length h
  rw [List.length_take] at this
  omega

theorem _root_.Backpak.Spec.Enter.within {fs fs' : Fs} {p : Path} (h : Enter fs p) (hl : Within p fs fs') : Enter fs' p :=
  h.mono (fun _ hk => (hl _ (not_prefix_take hk)).1)

/-- Nothing changes but what is at `p`, except for the modification time of the directory `p` is
in. -/
def Only (p : Path) (fs fs' : Fs) : Prop :=
  ∀ q, q ≠ p → SameButTime (fs q) (fs' q) ∧ (q ≠ p.dropLast → fs' q = fs q)

theorem Only.refl (p : Path) (fs : Fs) : Only p fs fs := fun _ _ => ⟨rfl, fun _ => rfl⟩

theorem Only.trans {p : Path} {a b c : Fs} (h : Only p a b) (h' : Only p b c) : Only p a c :=
  fun q hq => ⟨(h q hq).1.trans (h' q hq).1, fun hd => ((h' q hq).2 hd).trans ((h q hq).2 hd)⟩

theorem Only.within {p : Path} {fs fs' : Fs} (h : Only p fs fs') : Within p fs fs' :=
  fun q hq => h q (fun e => hq (e ▸ List.prefix_refl _))

theorem below_ne {p q : Path} (_hp : p ≠ []) (hq : q ≠ []) : p ++ q ≠ p ∧ p ++ q ≠ p.dropLast := by
  constructor
  · intro e
    have h1 := congrArg List.length e
    have h2 := List.length_pos_iff.mpr hq
    rw [List.length_append] at h1
    omega
  · intro e
    have h1 := congrArg List.length e
    have h2 := List.length_pos_iff.mpr hq
    rw [List.length_append, List.length_dropLast] at h1
    omega

/-- What is below `p` is as it was. -/
theorem Only.below {p : Path} {fs fs' : Fs} (h : Only p fs fs') (hp : p ≠ []) {q : Path} (hq : q ≠ []) :
    fs' (p ++ q) = fs (p ++ q) := (h _ (below_ne hp hq).1).2 (below_ne hp hq).2

theorem only_put (p : Path) (fs : Fs) (o : Option Obj) : Only p fs (fs.put p o) := by
  intro q hq
  have : fs.put p o q = fs q := if_neg hq
  rw [this]
  exact ⟨rfl, fun _ => rfl⟩

theorem only_touch (p : Path) (fs : Fs) (now : Int) : Only p fs (fs.touchParent p now) := by
  intro q _
  unfold Fs.touchParent
  by_cases h : q = p.dropLast
  · rw [if_pos h]
    refine ⟨?_, fun h' => absurd h h'⟩
    unfold SameButTime
    cases fs q <;> rfl
  · rw [if_neg h]
    exact ⟨rfl, fun _ => rfl⟩

theorem dropLast_ne {p : Path} (hp : p ≠ []) : p ≠ p.dropLast := by
  intro e
  have h1 := congrArg List.length e
  have h2 := List.length_pos_iff.mpr hp
  rw [List.length_dropLast] at h1
  omega

theorem put_touch_at {p : Path} (hp : p ≠ []) (fs : Fs) (o : Option Obj) (now : Int) :
    (fs.put p o).touchParent p now p = o := by
  unfold Fs.touchParent
  rw [if_neg (dropLast_ne hp)]
  exact if_pos rfl

/-! ## Single calls -/

variable (he : C33.EnvOk cenv) (hS : Sound C R) (ho : Opens R src)

/-- The disk before and after: the reader still works, and no symlink has been followed. -/
structure Fine (C : Codec Id) (R : Repo Id) (cenv : CacheEnv Id) (d d' : Disk Id) : Prop where
  reader : C33.Settled C R cenv d'.reader
  here : d'.elsewhere = d.elsewhere

omit [LinearOrder Id] in
theorem Fine.trans {a b c : Disk Id} (h : Fine C R cenv a b) (h' : Fine C R cenv b c) : Fine C R cenv a c :=
  ⟨h'.reader, h'.here.trans h.here⟩

include he hS ho in
theorem fill_ok {p : Path} {cs : List Id} {x : Bytes} (h : FileHolds C R cs x) : ∀ (d : Disk Id) (y : Bytes) (m : Nat) (t : Int),
    C33.Settled C R cenv d.reader → d.fs p = some ⟨.file y, m, t⟩ →
    ∃ d', fillFile C.hash src cenv p cs d = (d', none) ∧ Fine C R cenv d d' ∧
      d'.fs p = some ⟨.file (y ++ x), m, t⟩ ∧ Only p d.fs d'.fs := by
  induction h with
  | nil =>
    intro d y m t hr hd
    exact ⟨d, rfl, ⟨hr, rfl⟩, by simpa using hd, Only.refl _ _⟩
  | @cons c x cs z hc _ ih =>
    intro d y m t hr hd
    obtain ⟨s1, h1, h2⟩ := C33.read_ok he hS ho _ hr c x hc
    unfold fillFile
    simp only [h1, hd]
    obtain ⟨d', h3, h4, h5, h6⟩ := ih { d with fs := d.fs.put p (some ⟨.file (y ++ x), m, t⟩), reader := s1 }
      (y ++ x) m t h2 (if_pos rfl)
    refine ⟨d', h3, ⟨h4.reader, h4.here⟩, ?_, (only_put _ _ _).trans h6⟩
    rw [h5, List.append_assoc]

theorem ran_one {op : SysOp Id} {d d' : Disk Id} (hv : op.refused = false) (hin : Enter d.fs op.path)
    (h : callHere C.hash src cenv env op d = (d', none)) : Ran C src cenv env [op] d d' := by
  unfold Ran calls call
  rw [hv, hin.way]
  simp [h, calls]

include he hS ho in
theorem ran_write {p : Path} {cs : List Id} {x : Bytes} (h : FileHolds C R cs x) (d : Disk Id)
    (hr : C33.Settled C R cenv d.reader) (hin : Enter d.fs p)
    (hp : d.fs p = none ∨ ∃ y m t, d.fs p = some ⟨.file y, m, t⟩) :
    ∃ d' m t, Ran C src cenv env [.write p cs] d d' ∧ Fine C R cenv d d' ∧
      d'.fs p = some ⟨.file x, m, t⟩ ∧ Only p d.fs d'.fs := by
  rcases hp with hp | ⟨y, m, t, hp⟩
  · obtain ⟨d', h1, h2, h3, h4⟩ := fill_ok he hS ho h
      { d with tick := d.tick + 1, fs := (d.fs.put p (some ⟨.file [], env.fileMode, env.clock d.tick⟩)).touchParent p (env.clock d.tick) }
      [] env.fileMode (env.clock d.tick) hr (put_touch_at hin.ne _ _ _)
    refine ⟨d', _, _, ran_one rfl hin ?_, ⟨h2.reader, h2.here⟩, h3,
      ((only_put _ _ _).trans (only_touch _ _ _)).trans h4⟩
    unfold callHere
    simp only [SysOp.path, hp]
    exact h1
  · obtain ⟨d', h1, h2, h3, h4⟩ := fill_ok he hS ho h
      { d with tick := d.tick + 1, fs := d.fs.put p (some ⟨.file [], m, env.clock d.tick⟩) }
      [] m (env.clock d.tick) hr (if_pos rfl)
    refine ⟨d', _, _, ran_one rfl hin ?_, ⟨h2.reader, h2.here⟩, h3, (only_put _ _ _).trans h4⟩
    unfold callHere
    simp only [SysOp.path, hp]
    exact h1

theorem ran_symlink {p : Path} {tgt : Bytes} (d : Disk Id) (hr : C33.Settled C R cenv d.reader)
    (hin : Enter d.fs p) (hp : d.fs p = none) :
    ∃ d' m t, Ran C src cenv env [.symlink p tgt] d d' ∧ Fine C R cenv d d' ∧
      d'.fs p = some ⟨.link tgt, m, t⟩ ∧ Only p d.fs d'.fs := by
  refine ⟨{ d with tick := d.tick + 1, fs := (d.fs.put p (some ⟨.link tgt, env.linkMode, env.clock d.tick⟩)).touchParent p (env.clock d.tick) }, _, _, ran_one rfl hin (by unfold callHere; simp only [SysOp.path, hp]), ⟨hr, rfl⟩,
    put_touch_at hin.ne _ _ _, (only_put _ _ _).trans (only_touch _ _ _)⟩

theorem ran_mkdir {p : Path} (d : Disk Id) (hr : C33.Settled C R cenv d.reader)
    (hin : Enter d.fs p) (hp : d.fs p = none) :
    ∃ d' m t, Ran C src cenv env [.mkdir p] d d' ∧ Fine C R cenv d d' ∧
      d'.fs p = some ⟨.dir, m, t⟩ ∧ Only p d.fs d'.fs := by
  refine ⟨{ d with tick := d.tick + 1, fs := (d.fs.put p (some ⟨.dir, env.dirMode, env.clock d.tick⟩)).touchParent p (env.clock d.tick) }, _, _, ran_one rfl hin (by unfold callHere; simp only [SysOp.path, hp]), ⟨hr, rfl⟩,
    put_touch_at hin.ne _ _ _, (only_put _ _ _).trans (only_touch _ _ _)⟩

theorem ran_rmFile {p : Path} {o : Obj} (d : Disk Id) (hr : C33.Settled C R cenv d.reader)
    (hin : Enter d.fs p) (hp : d.fs p = some o) (hd : o.item ≠ .dir) :
    ∃ d', Ran C src cenv env [.rmFile p] d d' ∧ Fine C R cenv d d' ∧
      d'.fs p = none ∧ Only p d.fs d'.fs := by
  obtain ⟨i, m, t⟩ := o
  refine ⟨{ d with tick := d.tick + 1, fs := (d.fs.put p (none)).touchParent p (env.clock d.tick) }, ran_one rfl hin (by
    unfold callHere; simp only [SysOp.path, hp]
    cases i with
    | dir => exact absurd rfl hd
    | _ => rfl), ⟨hr, rfl⟩,
    put_touch_at hin.ne _ _ _, (only_put _ _ _).trans (only_touch _ _ _)⟩

theorem ran_rmAll {p : Path} {m : Nat} {t : Int} (d : Disk Id) (hr : C33.Settled C R cenv d.reader)
    (hin : Enter d.fs p) (hp : d.fs p = some ⟨.dir, m, t⟩) :
    ∃ d', Ran C src cenv env [.rmAll p] d d' ∧ Fine C R cenv d d' ∧
      (∀ q, d'.fs (p ++ q) = none) ∧ Within p d.fs d'.fs := by
  refine ⟨{ d with tick := d.tick + 1, fs := (d.fs.clear p).touchParent p (env.clock d.tick) }, ran_one rfl hin (by unfold callHere; simp only [SysOp.path, hp]), ⟨hr, rfl⟩, ?_,
    (within_clear _ _).trans (within_touch _ _ _)⟩
  intro q
  show ((d.fs.clear p).touchParent p _) (p ++ q) = none
  have hc : d.fs.clear p (p ++ q) = none := if_pos (by simp)
  unfold Fs.touchParent
  split
  · rw [hc]; rfl
  · exact hc

/-- A time that can be set is given as it is. -/
theorem nanos_toTimespec (t : Int) : (toTimespec t).nanos = t := by
  unfold toTimespec Timespec.nanos
  exact Int.tdiv_mul_add_tmod t _

theorem valid_toTimespec {t : Int} (h : 0 ≤ t ∨ 10 ^ 9 ∣ t) : (toTimespec t).valid = true := by
  unfold toTimespec Timespec.valid
  rw [Bool.and_eq_true, decide_eq_true_iff, decide_eq_true_iff]
  rcases h with h | h
  · exact ⟨Int.tmod_nonneg _ h, Int.tmod_lt_of_pos _ (by norm_num)⟩
  · rw [Int.tmod_eq_zero_of_dvd h]
    exact ⟨le_refl _, by norm_num⟩

theorem valid_stamps {md : Meta} (h : Datable md) :
    Stamps.valid ⟨md.atime.map toTimespec, md.mtime.map toTimespec⟩ = true := by
  unfold Stamps.valid
  rw [Bool.and_eq_true]
  constructor
  · cases ha : md.atime with
    | none => rfl
    | some t => exact valid_toTimespec (h t (.inl ha))
  · cases ha : md.mtime with
    | none => rfl
    | some t => exact valid_toTimespec (h t (.inr ha))

theorem ran_times {p : Path} {o : Obj} {v : Stamps} (hv : v.valid = true) (d : Disk Id) (hr : C33.Settled C R cenv d.reader)
    (hin : Enter d.fs p) (hp : d.fs p = some o) :
    ∃ d' t, Ran C src cenv env [.times p v] d d' ∧ Fine C R cenv d d' ∧
      d'.fs p = some { o with mtime := t } ∧ (∀ x, v.modification = some x → t = x.nanos) ∧ ∀ q, q ≠ p → d'.fs q = d.fs q := by
  refine ⟨{ d with tick := d.tick + 1, fs := d.fs.put p (some { o with mtime := (v.modification.map Timespec.nanos).getD (env.clock d.tick) }) }, (v.modification.map Timespec.nanos).getD (env.clock d.tick), ran_one (by simp [SysOp.refused, hv]) hin (by unfold callHere; simp only [SysOp.path, hp]), ⟨hr, rfl⟩,
    if_pos rfl, ?_, fun q hq => if_neg hq⟩
  rintro x hx
  rw [hx]
  rfl

theorem ran_chmod {p : Path} {o : Obj} {mode : Nat} (d : Disk Id) (hr : C33.Settled C R cenv d.reader)
    (hin : Enter d.fs p) (hp : d.fs p = some o) (hl : ∀ t, o.item ≠ .link t) :
    ∃ d', Ran C src cenv env [.chmod p mode] d d' ∧ Fine C R cenv d d' ∧
      d'.fs p = some { o with mode := mode % 0o10000 } ∧ ∀ q, q ≠ p → d'.fs q = d.fs q := by
  obtain ⟨i, m, t⟩ := o
  refine ⟨{ d with tick := d.tick + 1, fs := d.fs.put p (some ⟨i, mode % 0o10000, t⟩) }, ran_one rfl hin (by
    unfold callHere; simp only [SysOp.path, hp]
    cases i with
    | link t => exact absurd rfl (hl t)
    | _ => rfl), ⟨hr, rfl⟩, if_pos rfl, fun q hq => if_neg hq⟩

/-- Setting metadata: what is there keeps what it is; permissions and times are the node's if they
are restored, else as they were. -/
theorem ran_meta {p : Path} {o : Obj} {y : Node Id} (hk : y.md.kind = y.contents.kind)
    (hpx : args.permissions = true → ∃ m, y.md = .posix m) (hdt : args.times = true → Datable y.md)
    (hit : (∃ t, o.item = .link t) ↔ y.contents.kind = .link) :
    ∃ ops, metaOps args p y = .ok ops ∧ ∀ d : Disk Id, C33.Settled C R cenv d.reader → Enter d.fs p →
      d.fs p = some o → ∃ d' o', Ran C src cenv env ops d d' ∧ Fine C R cenv d d' ∧
      d'.fs p = some o' ∧ o'.item = o.item ∧
      (args.permissions = true → y.contents.kind ≠ .link → ModeOk o' y.md) ∧
      (args.permissions = false → o'.mode = o.mode) ∧
      (args.times = true → TimeOk o' y.md) ∧ (args.times = false → o'.mtime = o.mtime) ∧
      ∀ q, q ≠ p → d'.fs q = d.fs q := by
  have htimes : ∀ d : Disk Id, C33.Settled C R cenv d.reader → Enter d.fs p → d.fs p = some o →
      ∃ d' o', Ran C src cenv env
        (if args.times = true ∧ ¬ (y.md.mtime = none ∧ y.md.atime = none) then
          [.times p ⟨y.md.atime.map toTimespec, y.md.mtime.map toTimespec⟩] else []) d d' ∧
      Fine C R cenv d d' ∧ d'.fs p = some o' ∧ o'.item = o.item ∧ o'.mode = o.mode ∧
      (args.times = true → TimeOk o' y.md) ∧ (args.times = false → o'.mtime = o.mtime) ∧
      ∀ q, q ≠ p → d'.fs q = d.fs q := by
    intro d hr hin hp
    by_cases hc : args.times = true ∧ ¬ (y.md.mtime = none ∧ y.md.atime = none)
    · rw [if_pos hc]
      obtain ⟨d', t, h1, h2, h3, h4, h5⟩ := ran_times (C := C) (src := src) (env := env) 
        (valid_stamps (hdt hc.1)) d hr hin hp
      refine ⟨d', _, h1, h2, h3, rfl, rfl, ?_, ?_, h5⟩
      · intro _ m hm
        rw [h4 (toTimespec m.mtime) (by rw [hm]; rfl), nanos_toTimespec]
      · intro h; rw [h] at hc; exact absurd hc.1 (by simp)
    · rw [if_neg hc]
      refine ⟨d, o, Ran.nil _, ⟨hr, rfl⟩, hp, rfl, rfl, ?_, fun _ => rfl, fun _ _ => rfl⟩
      intro ht m hm
      exact absurd ⟨ht, by rw [hm]; simp [Meta.mtime]⟩ hc
  unfold metaOps
  simp only
  by_cases hperm : args.permissions = true
  · rw [if_pos hperm]
    obtain ⟨m, hm⟩ := hpx hperm
    rw [kind_ok hk]
    by_cases hl : y.contents.kind = .link
    · rw [hl]
      refine ⟨_, rfl, fun d hr hin hp => ?_⟩
      obtain ⟨d', o', h1, h2, h3, h4, h5, h6, h7, h8⟩ := htimes d hr hin hp
      exact ⟨d', o', h1, h2, h3, h4, fun _ h => absurd rfl h, fun h => absurd hperm (by simp [h]), h6, h7, h8⟩
    · obtain ⟨c, md⟩ := y
      simp only at hm
      subst hm
      refine ⟨(if args.times = true ∧ ¬ ((Meta.posix m).mtime = none ∧ (Meta.posix m).atime = none) then
        [.times p ⟨(Meta.posix m).atime.map toTimespec, (Meta.posix m).mtime.map toTimespec⟩] else []) ++ [.chmod p m.mode], ?_, fun d hr hin hp => ?_⟩
      rotate_left
      · obtain ⟨d', o', h1, h2, h3, h4, h5, h6, h7, h8⟩ := htimes d hr hin hp
        have hin' : Enter d'.fs p := by
          refine hin.mono (fun k hk => ?_)
          rw [h8 _ (take_ne hk)]
          exact rfl
        obtain ⟨d2, g1, g2, g3, g4⟩ := ran_chmod (C := C) (src := src) (env := env) (mode := m.mode) d' h2.reader hin' h3
          (fun t ht => hl (hit.mp ⟨t, by rw [← h4]; exact ht⟩))
        refine ⟨d2, _, Ran.append h1 g1, h2.trans g2, g3, h4, ?_, fun h => absurd hperm (by simp [h]),
          h6, h7, fun q hq => (g4 q hq).trans (h8 q hq)⟩
        rintro _ _ m' hm'
        cases hm'
        rfl
      · cases c with
        | link _ => exact absurd rfl hl
        | _ => rfl
  · rw [if_neg hperm]
    refine ⟨_, rfl, fun d hr hin hp => ?_⟩
    obtain ⟨d', o', h1, h2, h3, h4, h5, h6, h7, h8⟩ := htimes d hr hin hp
    exact ⟨d', o', h1, h2, h3, h4, fun h => absurd h hperm, fun _ => h5, h6, h7, h8⟩

end Backpak
