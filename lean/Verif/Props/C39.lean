import Verif.Lemmas.RestoreMain
import Verif.Lemmas.CheckRestore

/-!
# C39: a restore that deletes reproduces the snapshot
-/

namespace Backpak.C39

open Spec

variable {Id : Type} [LinearOrder Id] {C : Codec Id} {R : Repo Id} {src : Source Id} {cut : Bytes → Nat} {look : Look}
  {dangling : Path → Bool} {args : RestoreArgs} {s : Snapshot Id} {d2 : Dir Bytes} {cenv : CacheEnv Id} {env : FsEnv}

/-- With `--delete`: the restore succeeds, and at and below every destination there is what the
snapshot has there, and nothing else. -/
theorem reproduces (he : C33.EnvOk cenv) (hS : Sound C R) (ho : Opens R src) {d : Disk Id}
    (hr : d.reader = ReaderState.new) (h : RestoreOk C R cut look dangling args s d2 d.fs)
    (hw : args.dryRun = false) (hd : args.delete = true) :
    ∃ ops lines d', restore C src cut look dangling args s = .ok (ops, lines) ∧
      calls C.hash src cenv env ops d = (d', none) ∧ d'.elsewhere = d.elsewhere ∧
      ∀ p ∈ s.paths, ∀ q,
        (d'.fs (dest args s p ++ q)).map Obj.item =
          (entry d2 (lastName p :: q)).map (fun e => itemOf e.2) := by
  obtain ⟨ops, lines, d', h1, h2, h3, h4⟩ := restore_run ⟨C, R, src, cenv, env, args, he, hS, ho⟩ h hw rfl
    (by rw [hr]; exact C33.settled_new)
  refine ⟨ops, lines, d', h1, h2, h3, fun p hp q => ?_⟩
  have := (h4 p hp q).2 (no_conflict_delete hd)
  dsimp only at this
  cases he : entry d2 (lastName p :: q) with
  | none =>
    rw [he] at this
    simp only [After, hd, if_true] at this
    rw [this]; rfl
  | some e =>
    obtain ⟨md, l⟩ := e
    rw [he] at this
    obtain ⟨x, g1, g2, _⟩ := this
    rw [g1]
    simp [g2]

/-- With `--permissions`, files and directories have the permission bits of the snapshot; with
`--times`, files have its modification times. -/
theorem metadata (he : C33.EnvOk cenv) (hS : Sound C R) (ho : Opens R src) {d : Disk Id}
    (hr : d.reader = ReaderState.new) (h : RestoreOk C R cut look dangling args s d2 d.fs)
    (hw : args.dryRun = false) (hd : args.delete = true)
    {ops : List (SysOp Id)} {lines : List (DiffLine Id)} (hrun : restore C src cut look dangling args s = .ok (ops, lines))
    {p q : Path} (hp : p ∈ s.paths) {m : PosixMeta} {l : Option (Leaf Bytes)} (hl : ∀ t, l ≠ some (.link t))
    (hq : entry d2 (lastName p :: q) = some (.posix m, l)) :
    ∃ x, (calls C.hash src cenv env ops d).1.fs (dest args s p ++ q) = some x ∧
      (args.permissions = true → x.mode = m.mode % 0o10000) ∧
      (args.times = true → ∀ y, l = some (.file y) → x.mtime = m.mtime) := by
  obtain ⟨ops', lines', d', h1, h2, _, h4⟩ := restore_run ⟨C, R, src, cenv, env, args, he, hS, ho⟩ h hw rfl
    (by rw [hr]; exact C33.settled_new)
  rw [hrun] at h1
  cases h1
  have := (h4 p hp q).2 (no_conflict_delete hd)
  dsimp only at this
  rw [hq] at this
  obtain ⟨x, g1, g2, g3, g4⟩ := this
  rw [h2]
  exact ⟨x, g1, fun hp => g3 hp hl m rfl, fun ht y hy => g4 ht ⟨y, hy⟩ m rfl⟩

/-- A snapshot of `/h` with a file `a`, restored where `a` is a directory with a file in it and there
is another file. -/
example : ∃ ops lines d', restore Demo.codec (Check.opened Demo.repoH) Demo.cut Demo.lookH (fun _ => false)
      (Demo.argsH true) Demo.snapH = .ok (ops, lines) ∧
    calls Demo.codec.hash (Check.opened Demo.repoH) Demo.env ⟨fun n => n, 0o644, 0o755, 0o777⟩ ops
      ⟨Demo.fsH, 0, ReaderState.new, []⟩ = (d', none) ∧
    (d'.fs [[], [104], [97]]).map Obj.item = some (.file [1, 2, 3]) ∧ d'.fs [[], [104], [122]] = none := by
  obtain ⟨ops, lines, d', h1, h2, _, h4⟩ := reproduces (env := ⟨fun n => n, 0o644, 0o755, 0o777⟩) Demo.env_ok
    Demo.healthyH.sound (Check.opened_opens Demo.healthyH) (d := ⟨Demo.fsH, 0, ReaderState.new, []⟩) rfl
    (Demo.restoreOkH true) rfl rfl
  refine ⟨ops, lines, d', h1, h2, h4 [[], [104]] (by simp [Demo.snapH]) [[97]], ?_⟩
  have := h4 [[], [104]] (by simp [Demo.snapH]) [[122]]
  exact Option.map_eq_none_iff.mp this

end Backpak.C39
