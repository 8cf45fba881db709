import Verif.Lemmas.RestoreMain
import Verif.Lemmas.CheckRestore

/-!
# C40: a restore that does not delete removes nothing
-/

namespace Backpak.C40

open Spec

variable {Id : Type} [LinearOrder Id] {C : Codec Id} {R : Repo Id} {src : Source Id} {cut : Bytes → Nat} {look : Look}
  {dangling : Path → Bool} {args : RestoreArgs} {s : Snapshot Id} {d2 : Dir Bytes} {cenv : CacheEnv Id} {env : FsEnv}

/-- At or below a path where there is a directory and the snapshot has a file or symlink. -/
def InTheWay (d2 : Dir Bytes) (p : Path) (before : Path → Option Item) (q : Path) : Prop :=
  ∃ r, r <+: q ∧ before r = some .dir ∧ ∃ md l, entry d2 (lastName p :: r) = some (md, some l)

theorem before_dir {o : Option Obj} {e : Option Ent} (h : Shows o e) :
    (∃ md, e = some (md, none)) ↔ o.map Obj.item = some .dir := by
  cases e with
  | none => rw [shows_none.mp h]; simp
  | some e =>
    obtain ⟨x, rfl, h1, _⟩ := shows_some h
    obtain ⟨md, l⟩ := e
    simp only [Option.map_some, h1, Option.some.injEq, Prod.mk.injEq]
    cases l with
    | none => simp [itemOf]
    | some l => cases l <;> simp [itemOf]

/-- Without `--delete`: the restore succeeds; what the snapshot does not have is as it was; directories
stay directories; and where no directory is in the way there is what the snapshot has. -/
theorem removes_nothing (he : C33.EnvOk cenv) (hS : Sound C R) (ho : Opens R src) {d : Disk Id}
    (hr : d.reader = ReaderState.new) (h : RestoreOk C R cut look dangling args s d2 d.fs)
    (hw : args.dryRun = false) (hd : args.delete = false) :
    ∃ ops lines d', restore C src cut look dangling args s = .ok (ops, lines) ∧
      calls C.hash src cenv env ops d = (d', none) ∧ d'.elsewhere = d.elsewhere ∧
      ∀ p ∈ s.paths, ∀ q,
        (entry d2 (lastName p :: q) = none → d'.fs (dest args s p ++ q) = d.fs (dest args s p ++ q)) ∧
        ((d.fs (dest args s p ++ q)).map Obj.item = some .dir → (d'.fs (dest args s p ++ q)).map Obj.item = some .dir) ∧
        (InTheWay d2 p (fun r => (d.fs (dest args s p ++ r)).map Obj.item) q →
          d'.fs (dest args s p ++ q) = d.fs (dest args s p ++ q)) ∧
        (¬ InTheWay d2 p (fun r => (d.fs (dest args s p ++ r)).map Obj.item) q →
          ∀ md l, entry d2 (lastName p :: q) = some (md, l) →
            (d'.fs (dest args s p ++ q)).map Obj.item = some (itemOf l)) := by
  obtain ⟨ops, lines, d', h1, h2, h3, h4⟩ := restore_run ⟨C, R, src, cenv, env, args, he, hS, ho⟩ h hw rfl
    (by rw [hr]; exact C33.settled_new)
  refine ⟨ops, lines, d', h1, h2, h3, fun p hp q => ?_⟩
  obtain ⟨k1, k2⟩ := h4 p hp q
  dsimp only at k1 k2
  have hc : InTheWay d2 p (fun r => (d.fs (dest args s p ++ r)).map Obj.item) q ↔
      Conflict args (view (look (dest args s p))) (fun r => entry d2 (lastName p :: r)) q := by
    unfold InTheWay Conflict
    simp only [hd, true_and, before_dir (h.seen p hp _)]
  have ha : entry d2 (lastName p :: q) = none → d'.fs (dest args s p ++ q) = d.fs (dest args s p ++ q) := by
    intro hn
    by_cases hcf : Conflict args (view (look (dest args s p))) (fun r => entry d2 (lastName p :: r)) q
    · exact k1 hcf
    · have := k2 hcf
      rw [hn] at this
      simpa [After, hd] using this
  refine ⟨ha, ?_, fun hi => k1 (hc.mp hi), ?_⟩
  · intro hdir
    by_cases hcf : Conflict args (view (look (dest args s p))) (fun r => entry d2 (lastName p :: r)) q
    · rw [k1 hcf]; exact hdir
    · have := k2 hcf
      cases he : entry d2 (lastName p :: q) with
      | none => rw [ha he]; exact hdir
      | some e =>
        obtain ⟨md, l⟩ := e
        rw [he] at this
        cases l with
        | none =>
          obtain ⟨x, g1, g2, _⟩ := this
          rw [g1]
          simp [g2, itemOf]
        | some l =>
          exact absurd (hc.mp ⟨q, List.prefix_refl _, hdir, md, l, he⟩) hcf
  · intro hi md l hq
    have := k2 (fun hcf => hi (hc.mpr hcf))
    rw [hq] at this
    obtain ⟨x, g1, g2, _⟩ := this
    rw [g1]
    simp [g2]

/-- The snapshot has a file where there is a directory; both the directory and another file stay. -/
example : ∃ ops lines d', restore Demo.codec (Check.opened Demo.repoH) Demo.cut Demo.lookH (fun _ => false)
      (Demo.argsH false) Demo.snapH = .ok (ops, lines) ∧
    calls Demo.codec.hash (Check.opened Demo.repoH) Demo.env ⟨fun n => n, 0o644, 0o755, 0o777⟩ ops
      ⟨Demo.fsH, 0, ReaderState.new, []⟩ = (d', none) ∧
    (d'.fs [[], [104], [97]]).map Obj.item = some .dir ∧
    (d'.fs [[], [104], [122]]).map Obj.item = some (.file [9]) := by
  obtain ⟨ops, lines, d', h1, h2, _, h4⟩ := removes_nothing (env := ⟨fun n => n, 0o644, 0o755, 0o777⟩) Demo.env_ok
    Demo.healthyH.sound (Check.opened_opens Demo.healthyH) (d := ⟨Demo.fsH, 0, ReaderState.new, []⟩) rfl
    (Demo.restoreOkH false) rfl rfl
  refine ⟨ops, lines, d', h1, h2, (h4 [[], [104]] (by simp [Demo.snapH]) [[97]]).2.1 rfl, ?_⟩
  have := (h4 [[], [104]] (by simp [Demo.snapH]) [[122]]).1 rfl
  have e : dest (Demo.argsH false) Demo.snapH [[], [104]] ++ [[122]] = [[], [104], [122]] := rfl
  rw [e] at this
  rw [this]
  rfl

end Backpak.C40
