import Verif.Lemmas.FilterSnapshot
import Verif.Lemmas.DemoRun
import Verif.Lemmas.Pipeline2
import Verif.Props.C13
import Verif.Props.C28
import Verif.Props.C29
import Verif.Props.C42
import Verif.Lemmas.DryRestore

/-!
# C41 - Dry runs change nothing

For every state of the repository and the working directory, in good order or not, every schedule,
and every instant. (For forget and rebuild-index see also `C29` and `C28`.)
-/

namespace Backpak.C41

open Spec Pipeline

set_option linter.unusedSectionVars false

variable {Id : Type} [LinearOrder Id] {C : Codec Id} {ids : Ids Id} {cores : Nat}

/-- The system a dry run of a command runs. -/
def dryCfg (ids : Ids Id) (cores : Nat) (plan : Plan Id) : Cfg Id := ⟨ids, false, cores, plan.start, fun _ => True⟩

/-- A run that is dry, with nothing to do after the join, leaves the repository alone. -/
theorem unchanged {plan : Plan Id} (hposts : plan.posts = []) (w w' : World Id)
    (h : Instant (dryCfg ids cores plan) w plan.main plan.posts w') : w'.repo = w.repo := by
  cases h with
  | during s hs => exact (dry rfl hs).1
  | after s done rest hs hj hd =>
    rw [hposts] at hd
    rw [(List.append_eq_nil_iff.mp hd.symm).1]
    exact (dry rfl hs).1

theorem backup (cut : Bytes → Nat) (w w' : World Id) (src : Source Id) (snaps : List (Snap Id)) (a : BackupArgs)
    (hdry : a.dryRun = true) (plan : Plan Id) (hp : backupPlan C cut w src snaps a = .ok plan)
    (h : Instant (dryCfg ids cores plan) w plan.main plan.posts w') : w'.repo = w.repo := by
  refine unchanged ?_ w w' h
  obtain ⟨F, known, here, root, L, _, _, _, _, _, _, hpost⟩ := plan_ok hp
  unfold Plan.posts
  cases hpo : plan.post with
  | error e => rfl
  | ok l =>
    rw [hpo] at hpost
    rcases post_cases hpost.symm with h1 | ⟨h1, _⟩
    · exact h1
    · rw [hdry] at h1; cases h1

theorem prune (env : CacheEnv Id) (w w' : World Id) (src : Source Id) (snaps : List (Snap Id)) (plan : Plan Id)
    (hp : prunePlan C env w src snaps true = .ok (some plan))
    (h : Instant (dryCfg ids cores plan) w plan.main plan.posts w') : w'.repo = w.repo := by
  refine unchanged ?_ w w' h
  unfold prunePlan at hp
  simp only [if_true] at hp
  repeat' split at hp
  all_goals first | cases hp; rfl | cases hp

theorem copy (env : CacheEnv Id) (w w' : World Id) (from_ dst : Source Id) (snaps : List (Snap Id))
    (filter : Path → Bool) (plan : Plan Id) (hp : copyPlan C env w from_ dst snaps filter true = .ok plan)
    (h : Instant (dryCfg ids cores plan) w plan.main plan.posts w') : w'.repo = w.repo := by
  refine unchanged ?_ w w' h
  unfold copyPlan at hp
  simp only [if_true] at hp
  repeat' split at hp
  all_goals first | cases hp; rfl | cases hp

theorem filterSnapshot (w w' : World Id) (src : Source Id) (target : Snap Id) (filter : Path → Bool)
    (a : FilterArgs) (hdry : a.dryRun = true) (plan : Plan Id) (hp : filterPlan C src target filter a = .ok plan)
    (h : Instant (dryCfg ids cores plan) w plan.main plan.posts w') : w'.repo = w.repo := by
  refine unchanged ?_ w w' h
  unfold filterPlan at hp
  repeat' split at hp
  all_goals first | cases hp; simp [Plan.posts] | cases hp

theorem forget (able : ObjectId → Bool) (snaps : List (Snap ObjectId)) (args : List Bytes) (R : Repo ObjectId) :
    (Backpak.forget able true snaps args R).1 = R := C29.dry_nothing able snaps args R

/-- A dry restore makes no calls that change anything. -/
theorem restore {src : Source Id} {cut : Bytes → Nat} {look : Look} {dangling : Path → Bool} {args : RestoreArgs}
    {s : Snapshot Id} (hdry : args.dryRun = true) {ops : List (SysOp Id)} {lines : List (DiffLine Id)}
    (h : Backpak.restore C src cut look dangling args s = .ok (ops, lines)) : ops = [] := by
  cases ops with
  | nil => rfl
  | cons op ops =>
    have := (C42.paths h op (by simp)).1
    rw [hdry] at this
    cases this

/-- And prints what a real one prints. -/
theorem restore_prints {src : Source Id} {cut : Bytes → Nat} {look : Look} {dangling : Path → Bool} {args : RestoreArgs}
    {s : Snapshot Id} {ops : List (SysOp Id)} {lines : List (DiffLine Id)}
    (h : Backpak.restore C src cut look dangling args s = .ok (ops, lines)) :
    Backpak.restore C src cut look dangling { args with dryRun := true } s = .ok ([], lines) := by
  unfold Backpak.restore at h ⊢
  split at h
  · cases h
  · split at h
    · cases h
    · rename_i tgt ht
      dsimp only
      rw [ht]
      obtain ⟨t', h1, h2⟩ := compareTrees_follows (restorer_dry (args := args)) _ _ _ _ _ _
        (rfl : (([], []) : Restored Id) = ([], _)) _ h
      subst h2
      exact h1

/-- The working directory is not left alone: a dry run that finishes deletes the work-in-progress
file, so an interrupted backup can no longer be resumed. -/
theorem forgets_resume {plan : Plan Id} (w w' : World Id)
    (h : Finished (dryCfg ids cores plan) w plan.main plan.posts w') : w'.cwd.wip = none := by
  cases h with
  | mk s hs hj => exact C14.joined_wip hs hj

/-- A dry run of the example backup: it has blobs to send, and would otherwise make a snapshot. -/
def dry0 : BackupArgs := { Demo.args0 with dryRun := true }

def planD : Plan ObjectId := Demo.planOf (backupPlan Demo.codec Demo.cut Demo.world0 Demo.src0 [] dry0)

example : backupPlan Demo.codec Demo.cut Demo.world0 Demo.src0 [] dry0 = .ok planD ∧
    dry0.dryRun = true ∧ (sends planD.main).length = (sends Demo.plan0.main).length ∧
    (sends planD.main).length ≠ 0 ∧ Demo.plan0.posts.length = 1 ∧
    Instant (dryCfg Demo.ids 4 planD) Demo.world0 planD.main planD.posts Demo.world0 :=
  ⟨Demo.planOf_eq (by decide +kernel), rfl, by decide +kernel, by decide +kernel, by decide +kernel,
    .during _ .refl⟩

/-- A dry restore that prints something. -/
example : ∃ lines, Backpak.restore Demo.codec (Check.opened Demo.repoH) Demo.cut Demo.lookH (fun _ => false)
    { Demo.argsH true with dryRun := true } Demo.snapH = .ok ([], lines) ∧ lines ≠ [] := by
  obtain ⟨lines, h⟩ := C42.callsOf_eq (r := Backpak.restore Demo.codec (Check.opened Demo.repoH) Demo.cut Demo.lookH
    (fun _ => false) (Demo.argsH true) Demo.snapH) (by decide +kernel)
  refine ⟨lines, restore_prints h, ?_⟩
  have h2 : ((Backpak.restore Demo.codec (Check.opened Demo.repoH) Demo.cut Demo.lookH
    (fun _ => false) (Demo.argsH true) Demo.snapH).toOption.map (fun r => r.2.length)) ≠ some 0 := by decide +kernel
  rintro rfl
  rw [h] at h2
  exact h2 rfl

end Backpak.C41
