import Verif.Model.Checked

/-!
# C72: What a backup cannot read it finds out before it opens the repository

On a filesystem that stays as it is.
-/

namespace Backpak.C72

variable {Id : Type} [LinearOrder Id]

/-! ## What to say -/

/-- The calls that reading everything that is not skipped takes. Nothing in a skipped directory is looked at. -/
inductive Needs (filter : Path → Bool) : (Name → Path) → Dir Bytes → Call → Path → Prop
  | stat (pathOf n md l rest) : filter (pathOf n) = true → Needs filter pathOf (.leaf n md l rest) .stat (pathOf n)
  | link (pathOf n md t rest) : filter (pathOf n) = true →
      Needs filter pathOf (.leaf n md (.link t) rest) .readlink (pathOf n)
  | file (pathOf n md x rest) : filter (pathOf n) = true →
      Needs filter pathOf (.leaf n md (.file x) rest) .open (pathOf n)
  | dirStat (pathOf n md sub rest) : filter (pathOf n) = true →
      Needs filter pathOf (.dir n md sub rest) .stat (pathOf n)
  | dirList (pathOf n md sub rest) : filter (pathOf n) = true →
      Needs filter pathOf (.dir n md sub rest) .list (pathOf n)
  | sub (pathOf n md sub rest c p) : filter (pathOf n) = true → Needs filter (fun m => pathOf n ++ [m]) sub c p →
      Needs filter pathOf (.dir n md sub rest) c p
  | afterLeaf (pathOf n md l rest c p) : Needs filter pathOf rest c p → Needs filter pathOf (.leaf n md l rest) c p
  | afterDir (pathOf n md sub rest c p) : Needs filter pathOf rest c p → Needs filter pathOf (.dir n md sub rest) c p

/-- All that can be read. -/
def Readable (bad : Trouble) (filter : Path → Bool) (pathOf : Name → Path) (d : Dir Bytes) : Prop :=
  ∀ c p, Needs filter pathOf d c p → bad c p = false

/-- Files have sizes (`src/tree.rs:238`). -/
def SizesOk : Dir Bytes → Prop
  | .nil => True
  | .leaf _ md (.file _) r => md.size.isSome = true ∧ SizesOk r
  | .leaf _ _ _ r => SizesOk r
  | .dir _ _ s r => SizesOk s ∧ SizesOk r

/-- The sizes of all files that are not skipped. -/
def total (filter : Path → Bool) : (Name → Path) → Dir Bytes → Nat
  | _, .nil => 0
  | pathOf, .leaf n md (.file _) r => (if filter (pathOf n) then md.size.getD 0 else 0) + total filter pathOf r
  | pathOf, .leaf _ _ _ r => total filter pathOf r
  | pathOf, .dir n _ s r =>
    (if filter (pathOf n) then total filter (fun m => pathOf n ++ [m]) s else 0) + total filter pathOf r

/-! ## Walks -/

section
variable {T I S : Type} {bad : Trouble} {filter : Path → Bool}

theorem readable_leaf {pathOf : Name → Path} {n md l rest} (h : Readable bad filter pathOf (.leaf n md l rest)) :
    Readable bad filter pathOf rest := fun c p hn => h c p (.afterLeaf _ _ _ _ _ _ _ hn)

theorem readable_dir {pathOf : Name → Path} {n md sub rest} (h : Readable bad filter pathOf (.dir n md sub rest)) :
    Readable bad filter pathOf rest := fun c p hn => h c p (.afterDir _ _ _ _ _ _ _ hn)

theorem readable_sub {pathOf : Name → Path} {n md sub rest} (h : Readable bad filter pathOf (.dir n md sub rest))
    (hf : filter (pathOf n) = true) : Readable bad filter (fun m => pathOf n ++ [m]) sub :=
  fun c p hn => h c p (.sub _ _ _ _ _ _ _ hf hn)

/-- If all can be read, a walk is as if nothing could fail: whoever makes it, whatever it compares to. -/
theorem walk_untroubled (v : Visitor Id T I S) (F : Forest Id) (d : Dir Bytes) :
    ∀ (pathOf : Name → Path) (prev : Option (Tree Id)) (i : I) (s : S), Readable bad filter pathOf d →
      walkFsE bad v filter F pathOf prev d i s = walkFs v filter F pathOf prev d i s := by
  induction d with
  | nil => intros; rfl
  | leaf n md l rest ih =>
    intro pathOf prev i s h
    have ih' := fun i s => ih pathOf prev i s (readable_leaf h)
    unfold walkFsE walkFs
    by_cases hf : filter (pathOf n) = false
    · rw [if_pos hf, if_pos hf]; exact ih' i s
    · have hf' : filter (pathOf n) = true := by simpa using hf
      rw [if_neg hf, if_neg hf]
      dsimp only
      rw [h _ _ (.stat _ _ _ _ _ hf')]
      simp only [Bool.false_eq_true, if_false]
      cases l with
      | other => exact ih' i s
      | link t =>
        dsimp only
        rw [h _ _ (.link _ _ _ _ _ hf')]
        simp only [Bool.false_eq_true, if_false, ih']
        rfl
      | file x =>
        dsimp only
        rw [h _ _ (.file _ _ _ _ _ hf')]
        simp only [Bool.and_false, Bool.false_eq_true, if_false, ih']
        rfl
  | dir n md sub rest ihs ih =>
    intro pathOf prev i s h
    have ih' := fun i s => ih pathOf prev i s (readable_dir h)
    unfold walkFsE walkFs
    by_cases hf : filter (pathOf n) = false
    · rw [if_pos hf, if_pos hf]; exact ih' i s
    · have hf' : filter (pathOf n) = true := by simpa using hf
      rw [if_neg hf, if_neg hf]
      dsimp only
      rw [h _ _ (.dirStat _ _ _ _ _ hf'), h _ _ (.dirList _ _ _ _ _ hf')]
      simp only [Bool.false_eq_true, if_false, ihs _ _ _ _ (readable_sub h hf'), ih']
      rfl

/-- Trouble only ever makes a walk fail: it never makes one give something else. -/
theorem walk_or_fails (v : Visitor Id T I S) (F : Forest Id) (d : Dir Bytes) :
    ∀ (pathOf : Name → Path) (prev : Option (Tree Id)) (i : I) (s : S) (r : I × S),
      walkFsE bad v filter F pathOf prev d i s = .ok r → walkFs v filter F pathOf prev d i s = .ok r := by
  induction d with
  | nil => intro pathOf prev i s r h; exact h
  | leaf n md l rest ih =>
    intro pathOf prev i s r h
    unfold walkFsE at h
    unfold walkFs
    by_cases hf : filter (pathOf n) = false
    · rw [if_pos hf] at h ⊢; exact ih _ _ _ _ _ h
    · rw [if_neg hf] at h ⊢
      dsimp only at h ⊢
      split at h
      · cases h
      · cases l with
        | other => exact ih _ _ _ _ _ h
        | link t =>
          dsimp only at h ⊢
          split at h
          · cases h
          · split at h
            · cases h
            · rename_i hv; rw [hv]; exact ih _ _ _ _ _ h
        | file x =>
          dsimp only at h ⊢
          split at h
          · cases h
          · rename_i ch hch
            rw [hch]
            dsimp only
            split at h
            · cases h
            · split at h
              · cases h
              · rename_i hv; rw [hv]; exact ih _ _ _ _ _ h
  | dir n md sub rest ihs ih =>
    intro pathOf prev i s r h
    unfold walkFsE at h
    unfold walkFs
    by_cases hf : filter (pathOf n) = false
    · rw [if_pos hf] at h ⊢; exact ih _ _ _ _ _ h
    · rw [if_neg hf] at h ⊢
      dsimp only at h ⊢
      split at h
      · cases h
      · split at h
        · cases h
        · split at h
          · cases h
          · rename_i hw
            rw [ihs _ _ _ _ _ hw]
            dsimp only
            split at h
            · cases h
            · rename_i hz
              rw [hz]
              dsimp only
              split at h
              · cases h
              · rename_i hv; rw [hv]; exact ih _ _ _ _ _ h

end

/-! ## The check -/

section
variable {bad : Trouble} {filter : Path → Bool}

/-- What the check's walk comes to. -/
theorem check_walk (d : Dir Bytes) (hk : d.KindsOk) (hz : SizesOk d) : ∀ (pathOf : Name → Path) (s : Nat),
    (Readable bad filter pathOf d →
      walkFsE bad (checkVisitor (Id := Id)) filter [] pathOf none d () s = .ok ((), s + total filter pathOf d)) ∧
    (∀ r, walkFsE bad (checkVisitor (Id := Id)) filter [] pathOf none d () s = .ok r → Readable bad filter pathOf d) := by
  induction d with
  | nil => exact fun pathOf s => ⟨fun _ => rfl, fun r _ c p hn => by cases hn⟩
  | leaf n md l rest ih =>
    intro pathOf s
    have hk' : rest.KindsOk := by
      cases l with
      | file => exact hk.2
      | link => exact hk.2
      | other => exact hk.2
    have hz' : SizesOk rest := by
      cases l with
      | file => exact hz.2
      | link => exact hz
      | other => exact hz
    have ih := ih hk' hz'
    by_cases hf : filter (pathOf n) = false
    · have ht : total filter pathOf (.leaf n md l rest) = total filter pathOf rest := by
        cases l <;> simp [total, hf]
      unfold walkFsE
      rw [if_pos hf, ht]
      refine ⟨fun h => (ih pathOf s).1 (readable_leaf h), fun r h c p hn => ?_⟩
      have h' := (ih pathOf s).2 r h
      cases hn with
      | stat _ _ _ _ _ h1 => rw [hf] at h1; cases h1
      | link _ _ _ _ _ h1 => rw [hf] at h1; cases h1
      | file _ _ _ _ _ h1 => rw [hf] at h1; cases h1
      | afterLeaf _ _ _ _ _ _ _ h1 => exact h' c p h1
    · have hf' : filter (pathOf n) = true := by simpa using hf
      unfold walkFsE
      rw [if_neg hf]
      dsimp only
      cases hb : bad .stat (pathOf n) with
      | true =>
        simp only [if_true]
        exact ⟨fun h => (by rw [h _ _ (.stat _ _ _ _ _ hf')] at hb; cases hb), fun r h => (by cases h)⟩
      | false =>
        simp only [Bool.false_eq_true, if_false]
        cases l with
        | other =>
          refine ⟨fun h => (ih pathOf s).1 (readable_leaf h), fun r h c p hn => ?_⟩
          have h' := (ih pathOf s).2 r h
          cases hn with
          | stat => exact hb
          | afterLeaf _ _ _ _ _ _ _ h1 => exact h' c p h1
        | link t =>
          dsimp only
          cases hl : bad .readlink (pathOf n) with
          | true =>
            simp only [if_true]
            exact ⟨fun h => (by rw [h _ _ (.link _ _ _ _ _ hf')] at hl; cases hl), fun r h => (by cases h)⟩
          | false =>
            simp only [Bool.false_eq_true, if_false]
            refine ⟨fun h => (ih pathOf s).1 (readable_leaf h), fun r h c p hn => ?_⟩
            have h' := (ih pathOf s).2 r h
            cases hn with
            | stat => exact hb
            | link => exact hl
            | afterLeaf _ _ _ _ _ _ _ h1 => exact h' c p h1
        | file x =>
          have hch : fileChanged (Id := Id) md none = .ok true := by
            unfold fileChanged
            rw [if_neg (by simpa using hk.1)]
          obtain ⟨k, hmd⟩ := Option.isSome_iff_exists.1 hz.1
          dsimp only [Option.bind_none]
          rw [hch]
          dsimp only
          cases ho : bad .open (pathOf n) with
          | true =>
            simp only [Bool.and_self, if_true]
            exact ⟨fun h => (by rw [h _ _ (.file _ _ _ _ _ hf')] at ho; cases ho), fun r h => (by cases h)⟩
          | false =>
            simp only [Bool.and_false, Bool.false_eq_true, if_false, if_true, checkVisitor, hmd]
            refine ⟨fun h => ?_, fun r h c p hn => ?_⟩
            · have := (ih pathOf (s + k)).1 (readable_leaf h)
              refine this.trans ?_
              simp only [total, hf', if_true, hmd, Option.getD_some, Nat.add_assoc]
            · have h' := (ih pathOf (s + k)).2 r h
              cases hn with
              | stat => exact hb
              | file => exact ho
              | afterLeaf _ _ _ _ _ _ _ h1 => exact h' c p h1
  | dir n md sub rest ihs ih =>
    intro pathOf s
    have ihs := ihs hk.2.1 hz.1
    have ih := ih hk.2.2 hz.2
    by_cases hf : filter (pathOf n) = false
    · have ht : total filter pathOf (.dir n md sub rest) = total filter pathOf rest := by simp [total, hf]
      unfold walkFsE
      rw [if_pos hf, ht]
      refine ⟨fun h => (ih pathOf s).1 (readable_dir h), fun r h c p hn => ?_⟩
      have h' := (ih pathOf s).2 r h
      cases hn with
      | dirStat _ _ _ _ _ h1 => rw [hf] at h1; cases h1
      | dirList _ _ _ _ _ h1 => rw [hf] at h1; cases h1
      | sub _ _ _ _ _ _ _ h1 => rw [hf] at h1; cases h1
      | afterDir _ _ _ _ _ _ _ h1 => exact h' c p h1
    · have hf' : filter (pathOf n) = true := by simpa using hf
      unfold walkFsE
      rw [if_neg hf]
      dsimp only
      cases hb : bad .stat (pathOf n) with
      | true =>
        simp only [if_true]
        exact ⟨fun h => (by rw [h _ _ (.dirStat _ _ _ _ _ hf')] at hb; cases hb), fun r h => (by cases h)⟩
      | false =>
        simp only [Bool.false_eq_true, if_false]
        cases hl : bad .list (pathOf n) with
        | true =>
          simp only [if_true]
          exact ⟨fun h => (by rw [h _ _ (.dirList _ _ _ _ _ hf')] at hl; cases hl), fun r h => (by cases h)⟩
        | false =>
          simp only [Bool.false_eq_true, if_false, Option.bind_none, prevSubtree]
          obtain ⟨hs1, hs2⟩ := ihs (fun m => pathOf n ++ [m]) s
          refine ⟨fun h => ?_, fun r h => ?_⟩
          · rw [show (checkVisitor (Id := Id)).init = () from rfl, hs1 (readable_sub h hf')]
            refine ((ih pathOf _).1 (readable_dir h)).trans ?_
            simp only [total, hf', if_true, Nat.add_assoc]
          · rw [show (checkVisitor (Id := Id)).init = () from rfl] at h
            cases hw : walkFsE bad (checkVisitor (Id := Id)) filter [] (fun m => pathOf n ++ [m]) none sub () s with
            | error e => rw [hw] at h; cases h
            | ok r1 =>
              rw [hw] at h
              have h' := (ih pathOf _).2 r h
              have h'' := hs2 r1 hw
              intro c p hn
              cases hn with
              | dirStat => exact hb
              | dirList => exact hl
              | sub _ _ _ _ _ _ _ _ h1 => exact h'' c p h1
              | afterDir _ _ _ _ _ _ _ h1 => exact h' c p h1

end

/-- The check passes if and only if everything that is not skipped can be read; then it has counted the sizes of all
files there are. -/
theorem check_iff (bad : Trouble) (filter : Path → Bool) (pathOf : Name → Path) (d : Dir Bytes) (hk : d.KindsOk)
    (hz : SizesOk d) (b : Nat) :
    checkPaths Id bad filter pathOf d = .ok b ↔ Readable bad filter pathOf d ∧ b = total filter pathOf d := by
  have h := check_walk (Id := Id) (bad := bad) (filter := filter) d hk hz pathOf 0
  have hi : (checkVisitor (Id := Id)).init = () := rfl
  constructor
  · intro hc
    have hr : Readable bad filter pathOf d := by
      unfold checkPaths walkTopE at hc
      rw [hi] at hc
      cases hw : walkFsE bad (checkVisitor (Id := Id)) filter [] pathOf none d () 0 with
      | error e => simp only [Option.bind_none] at hc; rw [hw] at hc; cases hc
      | ok r => exact h.2 r hw
    refine ⟨hr, ?_⟩
    unfold checkPaths walkTopE at hc
    rw [hi] at hc
    simp only [Option.bind_none] at hc
    rw [h.1 hr] at hc
    have := Except.ok.inj hc
    rw [← this, Nat.zero_add]
  · rintro ⟨hr, rfl⟩
    unfold checkPaths walkTopE
    rw [hi]
    simp only [Option.bind_none]
    rw [h.1 hr, Nat.zero_add]
    rfl

/-- After the check has passed, the walk that backs up meets no trouble, whatever it compares to: the backup does
what `backupPlan` says. -/
theorem backup_after_check (bad : Trouble) (C : Codec Id) (cut : Bytes → Nat) (w : World Id) (src : Source Id)
    (snaps : List (Snap Id)) (a : BackupArgs) (hk : a.fs.KindsOk) (hz : SizesOk a.fs) (b : Nat)
    (hc : backupChecks Id bad a = .ok b) : backupPlanE bad C cut w src snaps a = backupPlan C cut w src snaps a := by
  have hr : Readable bad a.filter a.pathOf a.fs := by
    unfold backupChecks at hc
    split at hc
    · cases hc
    · exact ((check_iff bad a.filter a.pathOf a.fs hk hz b).1 hc).1
  have hw : ∀ (F : Forest Id) (root : Option Id) (s : Sends Id),
      backupTreeE bad C cut a.filter F a.pathOf root a.fs s = backupTree C cut a.filter F a.pathOf root a.fs s := by
    intro F root s
    unfold backupTreeE backupTree walkTopE walkTop
    rw [walk_untroubled _ _ _ _ _ _ _ hr]
    rfl
  unfold backupPlanE backupPlan
  simp only [hw]
  rfl

/-- What is backed up is what would be without trouble, even if the check were not made. -/
theorem backup_or_fails (bad : Trouble) (C : Codec Id) (cut : Bytes → Nat) (w : World Id) (src : Source Id)
    (snaps : List (Snap Id)) (a : BackupArgs) (p : Plan Id) (h : backupPlanE bad C cut w src snaps a = .ok p) :
    backupPlan C cut w src snaps a = .ok p := by
  have hw : ∀ (F : Forest Id) (root : Option Id) (s : Sends Id) r,
      backupTreeE bad C cut a.filter F a.pathOf root a.fs s = .ok r →
      backupTree C cut a.filter F a.pathOf root a.fs s = .ok r := by
    intro F root s r hr
    unfold backupTreeE walkTopE at hr
    unfold backupTree walkTop
    split at hr
    · cases hr
    · rename_i hx
      rw [walk_or_fails _ _ _ _ _ _ _ _ hx]
      exact hr
  unfold backupPlanE at h
  unfold backupPlan
  dsimp only at h ⊢
  split at h
  · cases h
  · rename_i h1
    rw [h1]
    dsimp only
    split at h
    · cases h
    · rename_i h2
      rw [h2]
      dsimp only
      split at h
      · cases h
      · rename_i h3
        rw [h3]
        dsimp only
        split at h
        · cases h
        · rename_i h4
          rw [hw _ _ _ _ h4]
          exact h

/-! ## Names -/

theorem rejectLoop_ok (l : List Path) : ∀ seen : List Name,
    rejectLoop l seen = .ok () ↔ (∀ p ∈ l, (pathName p).isSome = true) ∧ (l.filterMap pathName).Nodup ∧
      ∀ n ∈ l.filterMap pathName, n ∉ seen := by
  induction l with
  | nil => intro seen; simp [rejectLoop]
  | cons p l ih =>
    intro seen
    unfold rejectLoop
    cases hp : pathName p with
    | none => simp [hp]
    | some n =>
      dsimp only
      rw [List.filterMap_cons_some hp]
      by_cases hn : n ∈ seen
      · rw [if_pos hn]
        constructor
        · intro h; cases h
        · rintro ⟨_, _, h⟩; exact absurd hn (h n (List.mem_cons_self ..))
      · rw [if_neg hn, ih]
        simp only [List.mem_cons, forall_eq_or_imp, hp, Option.isSome_some, true_and, List.nodup_cons, hn,
          not_false_eq_true, not_or]
        constructor
        · rintro ⟨h1, h2, h3⟩
          exact ⟨h1, ⟨fun hm => (h3 n hm).1 rfl, h2⟩, fun m hm => (h3 m hm).2⟩
        · rintro ⟨h1, ⟨h2, h3⟩, h4⟩
          exact ⟨h1, h3, fun m hm => ⟨fun e => h2 (e ▸ hm), h4 m hm⟩⟩

/-- The path ends in this name. -/
def EndsIn (p : Path) (n : Name) : Prop := n ≠ [] ∧ ∃ q, p = q ++ [n]

theorem pathName_iff (p : Path) (n : Name) : pathName p = some n ↔ EndsIn p n := by
  unfold pathName EndsIn
  rcases List.eq_nil_or_concat p with rfl | ⟨q, m, rfl⟩
  · simp
  · rw [List.concat_eq_append, List.getLast?_concat]
    dsimp only
    by_cases hm : m = []
    · simp only [hm, if_true]
      constructor
      · intro h; cases h
      · rintro ⟨h1, q', h2⟩
        exact absurd (List.append_inj_right' h2 rfl) (by simpa using fun h => h1 h)
    · rw [if_neg hm]
      constructor
      · intro h; cases h; exact ⟨hm, q, rfl⟩
      · rintro ⟨_, q', h2⟩
        have := List.append_inj_right' h2 rfl
        simpa using this

/-- Paths are accepted if and only if each ends in a name and no two in the same. -/
theorem accepted_iff (paths : BSet Path) :
    rejectMatching paths = .ok () ↔ (∀ p ∈ paths, ∃ n, EndsIn p n) ∧
      List.Pairwise (fun p q => ∀ n, EndsIn p n → ¬ EndsIn q n) paths := by
  unfold rejectMatching
  rw [rejectLoop_ok]
  simp only [List.not_mem_nil, not_false_eq_true, implies_true, and_true, Option.isSome_iff_exists, pathName_iff,
    List.Nodup, List.pairwise_filterMap]
  refine and_congr_right fun _ => List.Pairwise.iff fun p q => ?_
  exact ⟨fun h n h1 h2 => h n h1 n h2 rfl, fun h n h1 n' h2 e => h n h1 (e ▸ h2)⟩

/-- The whole filesystem cannot be backed up: of `/` there is no name, and the command panics. -/
theorem root_panics : rejectMatching [[[], []]] = .error (.panic "empty path") := rfl

/-! ## The command -/

/-- A backup has anything to do with the repository only if its paths are accepted and all that is not skipped can be
read; then it does what it does where nothing can fail. Otherwise it fails, however the repository is. -/
theorem whole (bad : Trouble) (C : Codec Id) (cut : Bytes → Nat) (a : BackupArgs) (hk : a.fs.KindsOk)
    (hz : SizesOk a.fs) :
    (rejectMatching a.paths = .ok () ∧ Readable bad a.filter a.pathOf a.fs ∧
      ∀ w src snaps, backupWhole bad C cut w src snaps a = backupPlan C cut w src snaps a) ∨
    (¬ (rejectMatching a.paths = .ok () ∧ Readable bad a.filter a.pathOf a.fs) ∧
      ∃ e, ∀ w src snaps, backupWhole bad C cut w src snaps a = .error e) := by
  cases hc : backupChecks Id bad a with
  | ok b =>
    left
    have hc' := hc
    unfold backupChecks at hc'
    split at hc'
    · cases hc'
    · rename_i hr
      refine ⟨hr, ((check_iff bad a.filter a.pathOf a.fs hk hz b).1 hc').1, fun w src snaps => ?_⟩
      unfold backupWhole
      rw [hc]
      exact backup_after_check bad C cut w src snaps a hk hz b hc
  | error e =>
    right
    refine ⟨?_, e, fun w src snaps => ?_⟩
    · rintro ⟨h1, h2⟩
      unfold backupChecks at hc
      rw [h1] at hc
      dsimp only at hc
      rw [(check_iff bad a.filter a.pathOf a.fs hk hz _).2 ⟨h2, rfl⟩] at hc
      cases hc
    · unfold backupWhole
      rw [hc]

/-! ## Example -/

def mdF (k : Nat) : Meta := .posix ⟨0o100644, some k, 0, 0, 0, 0⟩
def mdD : Meta := .posix ⟨0o040755, none, 0, 0, 0, 0⟩

/-- `/a/b` can be read, `/a/c` cannot, and `/a/d`, where nothing can, is skipped. -/
def fsA : Dir Bytes :=
  .dir (ascii "a") mdD
    (.leaf (ascii "b") (mdF 3) (.file [1, 2, 3]) (.leaf (ascii "c") (mdF 5) (.file [1, 2, 3, 4, 5])
      (.dir (ascii "d") mdD .nil .nil))) .nil

def troubleA : Trouble := fun c p =>
  (c == .open && p == [[], ascii "a", ascii "c"]) || p == [[], ascii "a", ascii "d"]

def skipD (p : Path) : Bool := p != [[], ascii "a", ascii "d"]
def skipCD (p : Path) : Bool := skipD p && p != [[], ascii "a", ascii "c"]
def topA (n : Name) : Path := [[], n]

example : checkPaths Nat troubleA skipCD topA fsA = .ok 3 ∧
    checkPaths Nat troubleA skipD topA fsA = .error (.err "Can't open") ∧
    checkPaths Nat troubleA (fun _ => true) topA fsA = .error (.err "Can't open") ∧
    checkPaths Nat (fun _ _ => false) (fun _ => true) topA fsA = .ok 8 := by decide +kernel

example : fsA.KindsOk ∧ SizesOk fsA := by
  refine ⟨⟨by decide, ⟨by decide, by decide, by decide, trivial, trivial⟩, trivial⟩, ?_⟩
  exact ⟨⟨rfl, rfl, trivial, trivial⟩, trivial⟩

example : rejectMatching [[[], ascii "etc"], [[], ascii "home", ascii "me"]] = .ok () ∧
    rejectMatching [[[], ascii "a", ascii "me"], [[], ascii "home", ascii "me"]] = .error (.err "matching names") := by
  decide +kernel

end Backpak.C72
