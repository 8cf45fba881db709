import Verif.Spec.Restore
import Verif.Lemmas.RestoreMain
import Verif.Lemmas.CheckRestore

/-!
# C42: a restore stays where it was sent
-/

namespace Backpak.C42

open Spec

variable {Id : Type} [LinearOrder Id] {C : Codec Id} {src : Source Id} {cut : Bytes → Nat} {look : Look}
  {dangling : Path → Bool} {args : RestoreArgs} {s : Snapshot Id}

theorem placesOf_mem {place : Path → Name → Path} {P : Path → Prop} (l : List Path) :
    (∀ p ∈ l, ∀ n, P (place p n)) → ∀ {m places : BMap Name Path}, (∀ n p, (n, p) ∈ m → P p) →
    placesOf place l m = .ok places → ∀ n p, (n, p) ∈ places → P p := by
  induction l with
  | nil => intro _ m places hm h; cases h; exact hm
  | cons a l ih =>
    intro hl m places hm h
    unfold placesOf at h
    split at h
    · cases h
    · rename_i n _
      split at h
      · cases h
      · refine ih (fun p hp => hl p (List.mem_cons_of_mem _ hp)) ?_ h
        intro n' p' h'
        rcases BMap.mem_insert_of h' with ⟨_, rfl⟩ | h'
        · exact hl a (by simp) _
        · exact hm n' p' h'

/-- The places of the snapshot's top-level nodes are where the restore was sent. -/
theorem places_inside {F2 : Forest Id} {tgt : Target Id}
    (h : loadTarget C cut look dangling args.output s F2 = .ok tgt) :
    ∀ n p, (n, p) ∈ tgt.places → Inside args s p := by
  unfold loadTarget at h
  extract_lets walk at h
  split at h
  · rename_i dst hdst
    have hin : ∀ q : Path, dst <+: q → Inside args s q := fun q hq => ⟨dst, by simp [Destination, hdst], hq⟩
    split at h
    · split at h
      · cases h
      · split at h
        · cases h
        · split at h
          · cases h
          · split at h
            · cases h
            · split at h
              · cases h
              · cases h
                intro n p hp
                obtain ⟨_, rfl⟩ := Prod.mk.inj (List.mem_singleton.mp hp)
                exact hin _ (List.prefix_refl _)
    · split at h
      · cases h
      · rename_i places hp
        split at h
        · cases h
        · cases h
          exact placesOf_mem _ (fun p _ n => hin _ (List.prefix_append _ _)) (by simp) hp
  · rename_i hdst
    split at h
    · cases h
    · split at h
      · cases h
      · rename_i places hp
        cases h
        refine placesOf_mem _ (fun p hp' _ => ⟨p, ?_, List.prefix_refl _⟩) (by simp) hp
        simpa [Destination, hdst] using hp'

/-- Every call a restore makes is on a path that is restored, or below it; and a dry run makes none. -/
theorem paths {ops : List (SysOp Id)} {lines : List (DiffLine Id)}
    (h : restore C src cut look dangling args s = .ok (ops, lines)) :
    ∀ op ∈ ops, args.dryRun = false ∧ Inside args s op.path := by
  unfold restore at h
  split at h
  · cases h
  · split at h
    · cases h
    · rename_i tgt ht
      refine compareTrees_inv (P := fun r : Restored Id => ∀ op ∈ r.1, args.dryRun = false ∧ Inside args s op.path)
        ?_ _ _ _ _ _ _ ?_ h
      · intro e r r' hr he op hop
        unfold restorer at he
        split at he
        · cases he
        · rename_i ops' l' h'
          cases he
          rcases List.mem_append.mp hop with ho | ho
          · exact hr op ho
          · obtain ⟨h1, n, pl, h2, h3⟩ := restoreEvent_under h' op ho
            obtain ⟨p, h4, h5⟩ := places_inside ht n pl (BMap.mem_of_get? h2)
            exact ⟨h1, p, h4, h5.trans h3⟩
      · intro op hop; cases hop

/-- Whatever is on the disk, and wherever the restore stops: nothing changes outside the restored
paths, except that directories they are in may get a new modification time. -/
theorem outside_partial {ops : List (SysOp Id)} {lines : List (DiffLine Id)} {cenv : CacheEnv Id} {env : FsEnv}
    (h : restore C src cut look dangling args s = .ok (ops, lines)) (d : Disk Id) (q : Path)
    (hq : ¬ Inside args s q) :
    SameButTime (d.fs q) ((calls C.hash src cenv env ops d).1.fs q) ∧
    ((∀ p, Destination args s p → q ≠ p.dropLast) → (calls C.hash src cenv env ops d).1.fs q = d.fs q) := by
  have hin : ∀ op ∈ ops, Inside args s op.path := fun op hop => (paths h op hop).2
  clear h
  have one : ∀ (op : SysOp Id) (d : Disk Id), Inside args s op.path →
      SameButTime (d.fs q) ((call C.hash src cenv env op d).1.fs q) ∧
      ((∀ p, Destination args s p → q ≠ p.dropLast) → (call C.hash src cenv env op d).1.fs q = d.fs q) := by
    rintro op d ⟨p, hp, r, hr⟩
    have hn : ¬ op.path <+: q := fun e => hq ⟨p, hp, List.IsPrefix.trans ⟨r, hr⟩ e⟩
    obtain ⟨h1, h2⟩ := call_local (H := C.hash) (src := src) (cenv := cenv) (env := env) op d q hn
    refine ⟨h1, fun hd => h2 (fun e => ?_)⟩
    by_cases hr' : r = []
    · subst hr'
      rw [List.append_nil] at hr
      exact hd p hp (by rw [e, hr])
    · refine hq ⟨p, hp, ?_⟩
      rw [e, ← hr, List.dropLast_append_of_ne_nil hr']
      exact List.prefix_append _ _
  induction ops generalizing d with
  | nil => exact ⟨rfl, fun _ => rfl⟩
  | cons op ops ih =>
    obtain ⟨h1, h2⟩ := one op d (hin op (by simp))
    unfold calls
    cases hc : call C.hash src cenv env op d with
    | mk d' r =>
      rw [hc] at h1 h2
      cases r with
      | some e => exact ⟨h1, h2⟩
      | none =>
        obtain ⟨h3, h4⟩ := ih d' (fun o ho => hin o (List.mem_cons_of_mem _ ho))
        exact ⟨h1.trans h3, fun hd => (h4 hd).trans (h2 hd)⟩

/-- When everything a restore needs is there, none of its calls takes effect anywhere but at its path. -/
theorem stays {R : Repo Id} {d2 : Dir Bytes} {cenv : CacheEnv Id} {env : FsEnv} (he : C33.EnvOk cenv) (hS : Sound C R)
    (ho : Opens R src) {d : Disk Id} (hr : d.reader = ReaderState.new)
    (h : RestoreOk C R cut look dangling args s d2 d.fs) {ops : List (SysOp Id)} {lines : List (DiffLine Id)}
    (hrun : restore C src cut look dangling args s = .ok (ops, lines)) :
    (calls C.hash src cenv env ops d).1.elsewhere = d.elsewhere := by
  by_cases hw : args.dryRun = false
  · obtain ⟨ops', lines', d', h1, h2, h3, _⟩ := restore_run ⟨C, R, src, cenv, env, args, he, hS, ho⟩ h hw rfl
      (by rw [hr]; exact C33.settled_new)
    rw [hrun] at h1
    cases h1
    rw [h2]
    exact h3
  · cases ops with
    | nil => rfl
    | cons op ops => exact absurd (paths hrun op (by simp)).1 hw

/-- The calls, if there are any. -/
def callsOf : Res (Restored ObjectId) → List (SysOp ObjectId)
  | .ok r => r.1
  | .error _ => []

theorem callsOf_eq {r : Res (Restored ObjectId)} (h : r.toOption.isSome = true) : ∃ lines, r = .ok (callsOf r, lines) := by
  cases r with
  | error e => cases h
  | ok r => exact ⟨r.2, rfl⟩

theorem some_ops : (callsOf (restore Demo.codec (Check.opened Demo.repoH) Demo.cut Demo.lookH (fun _ => false)
    (Demo.argsH true) Demo.snapH)).length ≠ 0 := by decide +kernel

theorem some_run : ∃ lines, restore Demo.codec (Check.opened Demo.repoH) Demo.cut Demo.lookH (fun _ => false)
    (Demo.argsH true) Demo.snapH = .ok (callsOf (restore Demo.codec (Check.opened Demo.repoH) Demo.cut Demo.lookH
      (fun _ => false) (Demo.argsH true) Demo.snapH), lines) := callsOf_eq (by decide +kernel)

/-- A restore in place makes calls, all of them at or below `/h`. -/
example : ∃ ops lines, restore Demo.codec (Check.opened Demo.repoH) Demo.cut Demo.lookH (fun _ => false)
      (Demo.argsH true) Demo.snapH = .ok (ops, lines) ∧ ops ≠ [] ∧
    (∀ op ∈ ops, Inside (Demo.argsH true) Demo.snapH op.path) ∧
    (calls Demo.codec.hash (Check.opened Demo.repoH) Demo.env ⟨fun n => n, 0o644, 0o755, 0o777⟩ ops
      ⟨Demo.fsH, 0, ReaderState.new, []⟩).1.elsewhere = [] := by
  obtain ⟨lines, h⟩ := some_run
  refine ⟨_, lines, h, fun e => ?_, fun op hop => (paths h op hop).2,
    stays Demo.env_ok Demo.healthyH.sound (Check.opened_opens Demo.healthyH) rfl (Demo.restoreOkH true) h⟩
  have := some_ops
  rw [e] at this
  exact this rfl

/-! ## A way out -/

/-- A snapshot of two files, `/a` and `/b`. -/
def treeE : Blob ObjectId :=
  Demo.treeBlob [([97], ⟨.file [Demo.chunkA.id], Demo.fileMd 3 5⟩), ([98], ⟨.file [Demo.chunkB.id], Demo.fileMd 3 5⟩)]

def snapE : Snapshot ObjectId := ⟨1, [85], [1], [], [[[], [97]], [[], [98]]], treeE.id⟩

def repoE : Repo ObjectId := Demo.repoOf Demo.pruneIds [[Demo.chunkA, Demo.chunkB], [treeE]] [snapE]

/-- In the output directory, `a` is a symlink to something that does not exist. -/
def lookE : Look := fun p =>
  if p = [[], [111]] then some ((Demo.dirMd, none), .leaf [97] Demo.linkMd (.link [47, 120]) .nil)
  else if p = [[], [111], [97]] then some ((Demo.linkMd, some (.link [47, 120])), .nil)
  else none

def fsE : Fs := fun p =>
  if p = [[]] then some (Demo.objOf Demo.dirMd .dir)
  else if p = [[], [111]] then some (Demo.objOf Demo.dirMd .dir)
  else if p = [[], [111], [97]] then some (Demo.objOf Demo.linkMd (.link [47, 120]))
  else none

def argsE : RestoreArgs := ⟨some [[], [111]], false, true, false, false⟩

def opsE : List (SysOp ObjectId) :=
  callsOf (restore Demo.codec (Check.opened repoE) Demo.cut lookE (fun _ => true) argsE snapE)

theorem healthyE : Healthy Demo.codec Demo.pruneIds repoE := Check.healthy_sound (k := 3) (by decide +kernel)

theorem pair_eq {A B : Type} {p : A × B} {b : B} (h : p.2 = b) : p = (p.1, b) := by
  rw [← h]

theorem runE : ∃ lines, restore Demo.codec (Check.opened repoE) Demo.cut lookE (fun _ => true) argsE snapE =
    .ok (opsE, lines) := callsOf_eq (by decide +kernel)

def outE : Outcome ObjectId :=
  calls Demo.codec.hash (Check.opened repoE) Demo.env ⟨fun n => n, 0o644, 0o755, 0o777⟩ opsE ⟨fsE, 0, ReaderState.new, []⟩

theorem outE_ok : outE.2 = none := by decide +kernel

theorem outE_elsewhere : outE.1.elsewhere = [[[], [111], [97]]] := by decide +kernel

theorem outE_link : (outE.1.fs [[], [111], [97]]).map Obj.item = some (.link [47, 120]) := by decide +kernel

/-- Restoring a snapshot of several paths, with an output directory in which one of their names is a
symlink to nowhere, succeeds, and writes that path's contents through the symlink: it is still there
afterwards. -/
theorem escapes : Healthy Demo.codec Demo.pruneIds repoE ∧
    (∃ lines, restore Demo.codec (Check.opened repoE) Demo.cut lookE (fun _ => true) argsE snapE = .ok (opsE, lines)) ∧
    ∃ d', calls Demo.codec.hash (Check.opened repoE) Demo.env ⟨fun n => n, 0o644, 0o755, 0o777⟩ opsE
      ⟨fsE, 0, ReaderState.new, []⟩ = (d', none) ∧
      d'.elsewhere = [[[], [111], [97]]] ∧
      (d'.fs [[], [111], [97]]).map Obj.item = some (.link [47, 120]) :=
  ⟨healthyE, runE, outE.1, (pair_eq outE_ok :), outE_elsewhere, outE_link⟩

end Backpak.C42
