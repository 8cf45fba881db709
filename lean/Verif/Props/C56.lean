import Verif.Lemmas.RoundTrip
import Verif.Props.C20

/-!
# C56 - Backing up and then restoring gives back the same files

`look₀` says what was at the paths that were backed up, `look` what is at the destination when the
snapshot is restored. `Kept` says what a backup should keep of what is there and `After` what a
restore should make of what is kept.
-/

namespace Backpak.C56

open Spec Pipeline

variable {Id : Type} [LinearOrder Id] {C : Codec Id} {R : Repo Id} {src : Source Id} {cut : Bytes → Nat}
  {look₀ look : Look} {dangling : Path → Bool} {args : RestoreArgs} {sn : Snapshot Id} {a : BackupArgs}
  {cenv : CacheEnv Id} {env : FsEnv} {dst : Path} {md : Meta}

/-- A directory that was backed up is never a file or a link in the snapshot. -/
theorem kept_dir {filter : Path → Bool} {p q : Path} {m : Meta} {e : Option Ent}
    (h : Kept filter p q (some (m, none)) e) {m' : Meta} {l : Leaf Bytes} : e ≠ some (m', some l) := by
  intro he
  by_cases hw : Wanted filter p q
  · have := h.same hw (by intro x hx; cases hx)
    rw [he] at this
    cases this
  · have := h.skipped hw
    rw [he] at this
    cases this

/-- Restoring to an empty directory, from a repository in good order, a snapshot that holds what a
backup is given: at every path below the destination there is what was at the path backed up,
except for what was skipped and for special files. A single path that is not a directory is only
restored with `--delete`: otherwise the empty directory is in its way. -/
theorem restored (he : C33.EnvOk cenv) (hS : Sound C R) (ho : Opens R src) (hc : Chunk.Contract cut)
    (hg : Given look₀ a) (hsub : SubsSorted a.fs) (hp : args.permissions = true → AllPosix a.fs)
    (hdt : args.times = true → AllMeta Datable a.fs)
    (hs : sn.paths = a.paths) (hh : Holds C R sn.tree (arrange (keep a.filter a.pathOf a.fs)))
    (hout : args.output = some dst) {d : Disk Id} (hd : EmptyDir look dangling d.fs dst md)
    (hr : d.reader = ReaderState.new) (h1 : OneClash C R a.paths dst md) (hw : args.dryRun = false)
    (hdir : args.delete = true ∨ ∀ p, a.paths = [p] → ∃ m sub, look₀ p = some ((m, none), sub)) :
    ∃ ops lines d', restore C src cut look dangling args sn = .ok (ops, lines) ∧
      calls C.hash src cenv env ops d = (d', none) ∧ d'.elsewhere = d.elsewhere ∧
      ∀ p ∈ a.paths, ∀ q, ∃ e, Kept a.filter p q (view (look₀ p) q) e ∧
        After args (d.fs (dest args sn p ++ q)) e (d'.fs (dest args sn p ++ q)) := by
  obtain ⟨ops, lines, d', k1, k2, k3, k4⟩ := restore_run ⟨C, R, src, cenv, env, args, he, hS, ho⟩
    (restoreOk_empty (args := args) (fs := d.fs) hS hg hsub hc hp hdt hs hh hout hd h1) hw rfl
    (by rw [hr]; exact C33.settled_new)
  refine ⟨ops, lines, d', k1, k2, k3, fun p hp' q => ⟨_, kept hg hsub hp' q, ?_⟩⟩
  refine (k4 p (by rw [hs]; exact hp') q).2 ?_
  rcases hdir with hdel | hdir
  · exact no_conflict_delete hdel
  · rintro ⟨_, r, _, ⟨m1, b1⟩, m2, l, b2⟩
    dsimp only at b1 b2
    by_cases hn : sn.paths.length = 1
    · obtain ⟨p', hp1⟩ := List.length_eq_one_iff.mp hn
      have hpa : a.paths = [p'] := by rw [← hs]; exact hp1
      have hpp : p = p' := by rw [hpa] at hp'; simpa using hp'
      subst hpp
      rw [dest_one hout hp1, hd.seen] at b1
      cases r with
      | nil =>
        obtain ⟨m, sub, hl⟩ := hdir p hpa
        have hk := kept hg hsub hp' []
        rw [hl] at hk
        exact kept_dir hk b2
      | cons n r => cases r <;> cases b1
    · rw [dest_many hout hn, (hd.empty _ (by simp)).2] at b1
      cases b1

variable {ids : Ids Id} {cores : Nat} {snaps : List (Snap Id)} {plan : Plan Id}

/-- A backup that finished with a new snapshot, and a restore of that snapshot to an empty directory
by any process that opens the repository: the restore succeeds, and gives back what was backed up. -/
theorem round_trip_partial (w w' : World Id) (hB : BackupOk C cut ids w src snaps a)
    (hN : NoClash C cut ids cores w src snaps a plan)
    (hp : backupPlan C cut w src snaps a = .ok plan) (sn : Snapshot Id)
    (hsn : plan.post = .ok [.putSnap sn])
    (hf : Finished (C13.cfg ids cores a plan) w plan.main plan.posts w')
    (hg : Given look₀ a) {src' : Source Id} (ho : Opens w'.repo src') (he : C33.EnvOk cenv)
    (hpx : args.permissions = true → AllPosix a.fs) (hdt : args.times = true → AllMeta Datable a.fs) (hout : args.output = some dst) {d : Disk Id}
    (hd : EmptyDir look dangling d.fs dst md) (hr : d.reader = ReaderState.new)
    (h1 : OneClash C w'.repo a.paths dst md) (hw : args.dryRun = false)
    (hdir : args.delete = true ∨ ∀ p, a.paths = [p] → ∃ m sub, look₀ p = some ((m, none), sub)) :
    (ids.snapId sn, sn) ∈ w'.repo.snapshots ∧
    ∃ ops lines d', restore C src' cut look dangling args sn = .ok (ops, lines) ∧
      calls C.hash src' cenv env ops d = (d', none) ∧ d'.elsewhere = d.elsewhere ∧
      ∀ p ∈ a.paths, ∀ q, ∃ e, Kept a.filter p q (view (look₀ p) q) e ∧
        After args (d.fs (dest args sn p ++ q)) e (d'.fs (dest args sn p ++ q)) := by
  obtain ⟨g1, ⟨_, _, _, _, g2⟩, g3, g4⟩ := C20.snapshot_holds_partial w w' hB hN hp sn hsn hf
  exact ⟨g1, restored he g4.sound ho hB.chunker hg hB.sorted hpx hdt g2 g3 hout hd hr h1 hw hdir⟩

/-! ## An example -/

/-- What is at the four paths `Demo.args0` backs up. -/
def look0 : Look := fun p =>
  if p = [[104], [97]] then some ((Demo.fileMd 3 5, some (.file [1, 2, 3])), .nil)
  else if p = [[104], [98]] then some ((Demo.fileMd 3 6, some (.file [1, 2, 3])), .nil)
  else if p = [[104], [108]] then some ((Demo.linkMd, some (.link [97])), .nil)
  else if p = [[104], [115]] then some ((Demo.dirMd, none),
    .leaf [99] (Demo.fileMd 1 7) (.file [4]) <| .dir [101] Demo.dirMd .nil .nil)
  else none

theorem given0 : Given look0 Demo.args0 where
  fs := rfl
  distinct := by decide
  pathOf := by decide
  kinds := ⟨rfl, rfl, rfl, rfl, ⟨rfl, rfl, trivial, trivial⟩, trivial⟩
  few := by decide
  short := by decide

/-- Where it is restored: `/o`, an empty directory. -/
def lookO : Look := fun p => if p = [[], [111]] then some ((Demo.dirMd, none), .nil) else none

def fsO : Fs := fun p =>
  if p = [[]] then some (Demo.objOf Demo.dirMd .dir)
  else if p = [[], [111]] then some (Demo.objOf Demo.dirMd .dir)
  else none

theorem emptyO : EmptyDir lookO (fun _ => false) fsO [[], [111]] Demo.dirMd where
  enter := ⟨by simp, (by decide), by decide⟩
  there := ⟨_, rfl, rfl, fun p hp => by cases hp; rfl, fun p hp => by cases hp; rfl⟩
  seen := rfl
  kind := rfl
  ok := Demo.okDirMd
  empty := by
    intro q hq
    cases q with
    | nil => exact absurd rfl hq
    | cons n q => exact ⟨by simp [fsO], by simp [lookO]⟩
  links := fun _ => rfl
  named := by decide
  short := by decide

/-- Two files, a link and a directory with a file and an empty directory in it, backed up but for the
link and restored to an empty directory with permissions and times. -/
example : ∃ w' src' ops lines d', Finished (C13.cfg Demo.ids 4 Demo.args0 Demo.plan0) Demo.world0
      Demo.plan0.main Demo.plan0.posts w' ∧ Opens w'.repo src' ∧
    restore Demo.codec src' Demo.cut lookO (fun _ => false) ⟨some [[], [111]], false, false, true, true⟩ Demo.snap0 =
      .ok (ops, lines) ∧
    calls Demo.codec.hash src' Demo.env ⟨fun n => n, 0o644, 0o755, 0o777⟩ ops ⟨fsO, 0, ReaderState.new, []⟩ = (d', none) ∧
    (d'.fs [[], [111], [97]]).map Obj.item = some (.file [1, 2, 3]) ∧
    d'.fs [[], [111], [108]] = none ∧
    (d'.fs [[], [111], [115], [99]]).map Obj.item = some (.file [4]) ∧
    (d'.fs [[], [111], [115], [101]]).map Obj.item = some .dir := by
  obtain ⟨t, ht, hj⟩ := C20.finishes Demo.world0 Demo.backupOk0 Demo.noClash0 rfl (Nat.le_refl 4)
    BMap.sorted_nil Demo.plan0_eq _ .refl
  have hf := Finished.mk (post := Demo.plan0.posts) t ht hj
  have hH := (C20.snapshot_holds_partial Demo.world0 _ Demo.backupOk0 Demo.noClash0 Demo.plan0_eq Demo.snap0
    Demo.post0 hf).2.2.2
  obtain ⟨src', ho⟩ := C20.can_open _ hH
  have dat : ∀ {a b c e} {k : Nat}, Datable (.posix ⟨a, b, c, e, 0, k⟩) :=
    Demo.datable_posix (le_refl 0) (Int.natCast_nonneg _)
  obtain ⟨_, ops, lines, d', h1, h2, _, h4⟩ := round_trip_partial
    (args := ⟨some [[], [111]], false, false, true, true⟩) (env := ⟨fun n => n, 0o644, 0o755, 0o777⟩)
    (d := ⟨fsO, 0, ReaderState.new, []⟩) Demo.world0 _ Demo.backupOk0 Demo.noClash0 Demo.plan0_eq Demo.snap0
    Demo.post0 hf given0 ho Demo.env_ok
    (fun _ => ⟨⟨_, rfl⟩, ⟨_, rfl⟩, ⟨_, rfl⟩, ⟨_, rfl⟩, ⟨⟨_, rfl⟩, ⟨_, rfl⟩, trivial, trivial⟩, trivial⟩)
    (fun _ => ⟨dat, dat, dat, dat, ⟨dat, dat, trivial, trivial⟩, trivial⟩) rfl
    emptyO rfl (fun p h => by cases h) rfl (.inr fun p h => by cases h)
  have hdest : ∀ p, dest ⟨some [[], [111]], false, false, true, true⟩ Demo.snap0 p = [[], [111]] ++ [lastName p] := by
    intro p
    have : Demo.snap0.paths.length ≠ 1 := by decide +kernel
    exact dest_many rfl this p
  have want : ∀ p q, Demo.args0.filter p = true → (∀ n, Demo.args0.filter (p ++ [n]) = true) → q.length ≤ 1 →
      Wanted Demo.args0.filter p q := by
    intro p q h1 h2 hq k hk
    rcases q with _ | ⟨n, _ | ⟨m, q⟩⟩
    · simpa using h1
    · rcases k with _ | _ | k
      · simpa using h1
      · simpa using h2 n
      · simp at hk
    · simp at hq
  have key : ∀ p ∈ Demo.args0.paths, ∀ q m l, Wanted Demo.args0.filter p q → l ≠ some .other →
      view (look0 p) q = some (m, l) → (d'.fs (([[], [111]] ++ [lastName p]) ++ q)).map Obj.item = some (itemOf l) := by
    intro p hp q m l hw hl hv
    obtain ⟨e, he, ha⟩ := h4 p hp q
    have := he.same hw (by rw [hv]; intro md h; cases h; exact hl rfl)
    rw [this, hv, hdest] at ha
    obtain ⟨x, hx, hi, _⟩ := ha
    rw [hx, Option.map_some, hi]
  refine ⟨_, src', ops, lines, d', hf, ho, h1, h2, ?_, ?_, ?_, ?_⟩
  · exact key [[104], [97]] (by decide) [] _ _ (want _ _ (by decide) (by simp [Demo.args0, Demo.filter]) (by simp)) (by simp) rfl
  · obtain ⟨e, he, ha⟩ := h4 [[104], [108]] (by decide) []
    have := he.skipped (fun h => by have := h 0 (by simp); revert this; decide)
    subst this
    rw [hdest] at ha
    exact ha
  · exact key [[104], [115]] (by decide) [[99]] _ _ (want _ _ (by decide) (by simp [Demo.args0, Demo.filter]) (by simp)) (by simp) rfl
  · exact key [[104], [115]] (by decide) [[101]] _ _ (want _ _ (by decide) (by simp [Demo.args0, Demo.filter]) (by simp)) (by simp) rfl

end Backpak.C56
