import Verif.Lemmas.RestoreTimes
import Verif.Lemmas.DemoLink
import Verif.Props.C74

/-!
# C92: the times of directories and symlinks after a restore

That every node has the snapshot's modification time after a restore with `--times` is not so: see
`stale_directory` and `new_link`. What is so: files (C39), directories that are new or have other
metadata, directories in which nothing is made or removed, and links that were there already have it; and
all have it after a second restore.
-/

namespace Backpak.C92

open Spec Timely

variable {Id : Type} [LinearOrder Id] {C : Codec Id} {R : Repo Id} {src : Source Id} {cut : Bytes → Nat}
  {look look1 : Look} {dangling dangling1 : Path → Bool} {args : RestoreArgs} {s : Snapshot Id} {d2 : Dir Bytes}
  {cenv : CacheEnv Id} {env : FsEnv}

/-- Nothing directly in a directory is made, removed or replaced: each entry is there before and after and
is of the same kind, with the same target if it is a link; or there is none; or there is one that the
snapshot does not have and the restore does not delete. -/
def Undisturbed (delete : Bool) (before after : Path → Option Ent) (q : Path) : Prop :=
  ∀ n, match before (q ++ [n]), after (q ++ [n]) with
    | none, none => True
    | some _, none => delete = false
    | none, some _ => False
    | some (_, none), some (_, none) => True
    | some (_, some (.file _)), some (_, some (.file _)) => True
    | some (_, some (.link t)), some (_, some (.link t')) => t = t'
    | some (_, some .other), some (_, some .other) => True
    | _, _ => False

theorem undisturbed_alike {delete : Bool} {e1 e2 : Path → Option Ent} {q : Path} (h : Undisturbed delete e1 e2 q) (n : Name) :
    Alike delete (e1 (q ++ [n])) (e2 (q ++ [n])) := by
  have := h n
  revert this
  cases e1 (q ++ [n]) with
  | none =>
    cases e2 (q ++ [n]) with
    | none => exact fun h => h
    | some _ => exact fun h => h
  | some a =>
    obtain ⟨md, l⟩ := a
    cases e2 (q ++ [n]) with
    | none => exact fun h => h
    | some b =>
      obtain ⟨md', l'⟩ := b
      cases l with
      | none =>
        cases l' with
        | none => exact fun h => h
        | some l' => cases l' <;> exact fun h => h
      | some l =>
        cases l' with
        | none => cases l <;> exact fun h => h
        | some l' => cases l <;> cases l' <;> exact fun h => h

theorem ran (he : C33.EnvOk cenv) (hS : Sound C R) (ho : Opens R src) {d : Disk Id}
    (hr : d.reader = ReaderState.new) (h : RestoreOk C R cut look dangling args s d2 d.fs)
    (hw : args.dryRun = false) {ops : List (SysOp Id)} {lines : List (DiffLine Id)}
    (hrun : restore C src cut look dangling args s = .ok (ops, lines)) :
    ∃ d', calls C.hash src cenv env ops d = (d', none) ∧ d'.elsewhere = d.elsewhere ∧
      ∀ p ∈ s.paths, ∀ q, Ends args (view (look (dest args s p))) (fun r => entry d2 (lastName p :: r)) q
        (d.fs (dest args s p ++ q)) (d'.fs (dest args s p ++ q)) := by
  obtain ⟨ops', lines', d', h1, h2, h3, h4⟩ := restore_run ⟨C, R, src, cenv, env, args, he, hS, ho⟩ h hw rfl
    (by rw [hr]; exact C33.settled_new)
  have := h1.symm.trans hrun
  cases this
  exact ⟨d', h2, h3, h4⟩

/-- Where the time is set, or was right and is left alone. -/
theorem time_of (he : C33.EnvOk cenv) (hS : Sound C R) (ho : Opens R src) {d : Disk Id}
    (hr : d.reader = ReaderState.new) (h : RestoreOk C R cut look dangling args s d2 d.fs)
    (hw : args.dryRun = false) (ht : args.times = true) {ops : List (SysOp Id)} {lines : List (DiffLine Id)}
    (hrun : restore C src cut look dangling args s = .ok (ops, lines)) {p q : Path} (hp : p ∈ s.paths) {m : PosixMeta}
    {l : Option (Leaf Bytes)} (hq : entry d2 (lastName p :: q) = some (.posix m, l))
    (hc : Timely.Fresh (view (look (dest args s p)) q) (.posix m) l ∨
      Still args.delete (view (look (dest args s p))) (fun r => entry d2 (lastName p :: r)) q) :
    ∃ x, (calls C.hash src cenv env ops d).1.fs (dest args s p ++ q) = some x ∧ x.mtime = m.mtime := by
  obtain ⟨d', h2, h3, _⟩ := ran (env := env) he hS ho hr h hw hrun
  obtain ⟨g1, g2, _⟩ := restore_timed ⟨C, R, src, cenv, env, args, he, hS, ho⟩ h.toRestoreBut ht hw hrun hp
  rcases hc with hc | hc
  · rw [h2]
    exact settles_calls (g1 q m l hq hc) h2 h3
  · have hk := calm_calls (H := C.hash) (src := src) (cenv := cenv) (env := env) ops d (g2 q hc) (fun _ _ _ h => h)
    obtain ⟨⟨md, l', _, e1, e2⟩, _⟩ := hc
    dsimp only at e2
    rw [hq] at e2
    cases e2
    have hs := h.seen p hp q
    rw [e1] at hs
    obtain ⟨o, ho1, _, _, ho4⟩ := shows_some hs
    obtain ⟨x, hx, hx'⟩ := hk.time o ho1
    exact ⟨x, hx, hx'.trans (ho4 m rfl)⟩

/-- A directory of the snapshot has its time after a restore with `--times`, if it was not there or had other
metadata, or if nothing directly in it is made, removed or replaced. -/
theorem directory_partial (he : C33.EnvOk cenv) (hS : Sound C R) (ho : Opens R src) {d : Disk Id}
    (hr : d.reader = ReaderState.new) (h : RestoreOk C R cut look dangling args s d2 d.fs)
    (hw : args.dryRun = false) (ht : args.times = true) {ops : List (SysOp Id)} {lines : List (DiffLine Id)}
    (hrun : restore C src cut look dangling args s = .ok (ops, lines)) {p q : Path} (hp : p ∈ s.paths) {m : PosixMeta}
    (hq : entry d2 (lastName p :: q) = some (.posix m, none))
    (hc : view (look (dest args s p)) q ≠ some (.posix m, none) ∨
      Undisturbed args.delete (view (look (dest args s p))) (fun r => entry d2 (lastName p :: r)) q) :
    ∃ x, (calls C.hash src cenv env ops d).1.fs (dest args s p ++ q) = some x ∧ x.mtime = m.mtime := by
  refine time_of he hS ho hr h hw ht hrun hp hq ?_
  by_cases hsame : view (look (dest args s p)) q = some (.posix m, none)
  · rcases hc with hc | hc
    · exact absurd hsame hc
    · exact .inr ⟨⟨_, none, .inl rfl, hsame, hq⟩, undisturbed_alike hc⟩
  · exact .inl hsame

/-- `/h` was a file and is made a directory, with the time the snapshot has. -/
example : ∃ x d', (∃ ops lines, restore Demo.codec (Check.opened Demo.repoH) Demo.cut Demo.lookL (fun _ => false)
      (Demo.argsH true) Demo.snapH = .ok (ops, lines) ∧
      calls Demo.codec.hash (Check.opened Demo.repoH) Demo.env Demo.fsEnv7 ops Demo.diskL = (d', none)) ∧
    d'.fs [[], [104]] = some x ∧ x.mtime = 0 := by
  obtain ⟨rest, lines, hrun⟩ := Demo.runL
  obtain ⟨d', h2, _, _⟩ := ran (env := Demo.fsEnv7) Demo.env_ok Demo.healthyH.sound
    (Check.opened_opens Demo.healthyH) (d := Demo.diskL) rfl Demo.restoreOkL rfl hrun
  obtain ⟨x, h3, h4⟩ := directory_partial (env := Demo.fsEnv7) Demo.env_ok Demo.healthyH.sound
    (Check.opened_opens Demo.healthyH) (d := Demo.diskL) rfl Demo.restoreOkL rfl rfl hrun (p := [[], [104]]) (q := [])
    (List.mem_singleton.mpr rfl) (m := ⟨0o040755, none, 0, 0, 0, 0⟩) rfl
    (.inl (fun h => by cases h))
  rw [h2] at h3
  exact ⟨x, d', ⟨_, lines, hrun, h2⟩, h3, h4⟩

theorem view_under {c : Option (Ent × Dir Bytes)} {q : Path} {md : Meta} {l : Leaf Bytes} (h : view c q = some (md, some l))
    {r : Path} (hr : r ≠ []) : view c (q ++ r) = none := by
  cases c with
  | none => rfl
  | some c =>
    obtain ⟨⟨md', l'⟩, sub⟩ := c
    cases l' with
    | some l' => exact view_leaf (by simp [hr])
    | none =>
      have hq : q ≠ [] := by rintro rfl; cases h
      rw [view_dir hq] at h
      rw [view_dir (by simp [hr])]
      by_contra hne
      have := entry_under h (List.prefix_append q r) hne
      have := congrArg List.length this
      rw [List.length_append] at this
      have := List.length_pos_iff.mpr hr
      omega

/-- A link that was there already, with the same target, has the snapshot's time. -/
theorem old_link (he : C33.EnvOk cenv) (hS : Sound C R) (ho : Opens R src) {d : Disk Id}
    (hr : d.reader = ReaderState.new) (h : RestoreOk C R cut look dangling args s d2 d.fs)
    (hw : args.dryRun = false) (ht : args.times = true) {ops : List (SysOp Id)} {lines : List (DiffLine Id)}
    (hrun : restore C src cut look dangling args s = .ok (ops, lines)) {p q : Path} (hp : p ∈ s.paths) {m : PosixMeta}
    {t : Bytes} (hq : entry d2 (lastName p :: q) = some (.posix m, some (.link t)))
    (hb : (d.fs (dest args s p ++ q)).map Obj.item = some (.link t)) :
    ∃ x, (calls C.hash src cenv env ops d).1.fs (dest args s p ++ q) = some x ∧ x.mtime = m.mtime := by
  refine time_of he hS ho hr h hw ht hrun hp hq ?_
  have hs := h.seen p hp q
  cases hv : view (look (dest args s p)) q with
  | none => rw [hv] at hs; rw [shows_none.mp hs] at hb; cases hb
  | some e =>
    obtain ⟨md, l⟩ := e
    rw [hv] at hs
    obtain ⟨o, ho1, ho2, _⟩ := shows_some hs
    rw [ho1, Option.map_some, ho2] at hb
    have hl : l = some (.link t) := by
      cases l with
      | none => cases hb
      | some l => cases l <;> cases hb; rfl
    subst hl
    by_cases hmd : md = .posix m
    · subst hmd
      refine .inr ⟨⟨_, _, .inr ⟨t, rfl⟩, hv, hq⟩, fun n => ?_⟩
      rw [view_under hv (by simp)]
      have : entry d2 (lastName p :: (q ++ [n])) = none := by
        rw [entry_cons] at hq ⊢
        exact view_under hq (by simp)
      dsimp only
      rw [this]
      trivial
    · exact .inl ⟨md, hmd, rfl⟩

/-- The link `/l` has the time 3 and gets the snapshot's, 0. -/
example : ∃ x d', (∃ ops lines, restore Demo.codec (Check.opened Demo.repoW) Demo.cut (Demo.lookW true) (fun _ => false)
      (Demo.argsH true) Demo.snapW = .ok (ops, lines) ∧
      calls Demo.codec.hash (Check.opened Demo.repoW) Demo.env Demo.fsEnv7 ops (Demo.diskW true) = (d', none)) ∧
    d'.fs [[], [108]] = some x ∧ x.mtime = 0 := by
  obtain ⟨ops, lines, d', hrun, h2, _⟩ := restore_run ⟨_, _, _, _, Demo.fsEnv7, _, Demo.env_ok, Demo.healthyW.sound,
    Check.opened_opens Demo.healthyW⟩ (Demo.restoreOkW true) (d := Demo.diskW true) rfl rfl C33.settled_new
  obtain ⟨x, h3, h4⟩ := old_link (env := Demo.fsEnv7) Demo.env_ok Demo.healthyW.sound
    (Check.opened_opens Demo.healthyW) (d := Demo.diskW true) rfl (Demo.restoreOkW true) rfl rfl hrun (p := [[], [108]])
    (q := []) (List.mem_singleton.mpr rfl) (m := ⟨0o120777, none, 0, 0, 0, 0⟩) (t := [120]) rfl rfl
  dsimp only at h2
  rw [h2] at h3
  exact ⟨x, d', ⟨ops, lines, hrun, h2⟩, h3, h4⟩

/-- The time of a link that the restore had to make is that of its making, whatever the snapshot says. -/
theorem new_link (he : C33.EnvOk cenv) (hS : Sound C R) (ho : Opens R src) {d : Disk Id} (h : RestoreOk C R cut look dangling args s d2 d.fs)
    (hw : args.dryRun = false) (ht : args.times = true) {ops : List (SysOp Id)} {lines : List (DiffLine Id)}
    (hrun : restore C src cut look dangling args s = .ok (ops, lines)) {p q : Path} (hp : p ∈ s.paths) {md : Meta}
    {t : Bytes} (hq : entry d2 (lastName p :: q) = some (md, some (.link t)))
    (hb : (d.fs (dest args s p ++ q)).map Obj.item ≠ some (.link t)) {x : Obj}
    (hx : (calls C.hash src cenv env ops d).1.fs (dest args s p ++ q) = some x) (hl : x.item = .link t) :
    ∃ k, d.tick ≤ k ∧ x.mtime = env.clock k := by
  obtain ⟨_, _, g3⟩ := restore_timed ⟨C, R, src, cenv, env, args, he, hS, ho⟩ h.toRestoreBut ht hw hrun hp
  have hn : NewLink (view (look (dest args s p)) q) t := by
    intro md' hv
    have hs := h.seen p hp q
    rw [hv] at hs
    obtain ⟨o, ho1, ho2, _⟩ := shows_some hs
    exact hb (by rw [ho1, Option.map_some, ho2]; rfl)
  have hm := made_calls (H := C.hash) (src := src) (cenv := cenv) (env := env) (t0 := d.tick) (t := t)
    (r := dest args s p ++ q) ops (d := d) ⟨le_refl _, fun y hy hi => absurd (by rw [hy, Option.map_some, hi]) hb⟩
    (g3 q md t hq hn)
  exact hm.2 x hx hl

/-- `/l` is a file. The link put there instead has the time 7, when it is made; the snapshot's time is 0. -/
theorem stale_link : ∃ x d', (∃ ops lines, restore Demo.codec (Check.opened Demo.repoW) Demo.cut (Demo.lookW false)
      (fun _ => false) (Demo.argsH true) Demo.snapW = .ok (ops, lines) ∧
      calls Demo.codec.hash (Check.opened Demo.repoW) Demo.env Demo.fsEnv7 ops (Demo.diskW false) = (d', none)) ∧
    d'.fs [[], [108]] = some x ∧ x.item = .link [120] ∧ x.mtime = 7 ∧
    entry Demo.dirW [[108]] = some (.posix ⟨0o120777, none, 0, 0, 0, 0⟩, some (.link [120])) := by
  obtain ⟨ops0, lines0, d0, e1, e2, _, e4⟩ := C39.reproduces (env := Demo.fsEnv7) Demo.env_ok Demo.healthyW.sound
    (Check.opened_opens Demo.healthyW) (d := Demo.diskW false) rfl (Demo.restoreOkW false) rfl rfl
  have hx := e4 [[], [108]] (List.mem_singleton.mpr rfl) []
  have hx : (d0.fs [[], [108]]).map Obj.item = some (.link [120]) := hx
  obtain ⟨x, h3, h5⟩ := Option.map_eq_some_iff.mp hx
  obtain ⟨_, _, h6⟩ := new_link (env := Demo.fsEnv7) Demo.env_ok Demo.healthyW.sound
    (Check.opened_opens Demo.healthyW) (d := Demo.diskW false) (Demo.restoreOkW false) rfl rfl e1 (p := [[], [108]])
    (q := []) (List.mem_singleton.mpr rfl) (md := Demo.linkMd) (t := [120]) rfl (fun h => by cases h) (x := x)
    (by rw [e2]; exact h3) h5
  exact ⟨x, d0, ⟨ops0, lines0, e1, e2⟩, h3, h5, h6, rfl⟩

/-- If what is there already is what the snapshot has but for metadata, all times are the snapshot's
afterwards: of files, directories and links. -/
theorem settled (he : C33.EnvOk cenv) (hS : Sound C R) (ho : Opens R src) {d : Disk Id}
    (hr : d.reader = ReaderState.new) (h : RestoreOk C R cut look dangling args s d2 d.fs)
    (hw : args.dryRun = false) (ht : args.times = true) {ops : List (SysOp Id)} {lines : List (DiffLine Id)}
    (hrun : restore C src cut look dangling args s = .ok (ops, lines))
    (hsame : ∀ p ∈ s.paths, ∀ q, (d.fs (dest args s p ++ q)).map Obj.item =
      (entry d2 (lastName p :: q)).map (fun e => itemOf e.2)) {p q : Path} (hp : p ∈ s.paths) {m : PosixMeta}
    {l : Option (Leaf Bytes)} (hq : entry d2 (lastName p :: q) = some (.posix m, l)) (hl : l ≠ some .other) :
    ∃ x, (calls C.hash src cenv env ops d).1.fs (dest args s p ++ q) = some x ∧ x.item = itemOf l ∧ x.mtime = m.mtime := by
  have hitem : ∀ l l' : Option (Leaf Bytes), itemOf l = itemOf l' → l = l' := by
    intro l l' h
    cases l with
    | none => cases l' with
      | none => rfl
      | some l' => cases l' <;> cases h
    | some l => cases l' with
      | none => cases l <;> cases h
      | some l' => cases l <;> cases l' <;> cases h <;> rfl
  have hview : ∀ q, (view (look (dest args s p)) q = none ∧ entry d2 (lastName p :: q) = none) ∨
      ∃ md md' l, view (look (dest args s p)) q = some (md, l) ∧ entry d2 (lastName p :: q) = some (md', l) := by
    intro q
    have h1 := hsame p hp q
    have hs := h.seen p hp q
    cases hv : view (look (dest args s p)) q with
    | none =>
      rw [hv] at hs
      rw [shows_none.mp hs] at h1
      exact .inl ⟨rfl, Option.map_eq_none_iff.mp h1.symm⟩
    | some e =>
      obtain ⟨md, l⟩ := e
      rw [hv] at hs
      obtain ⟨o, ho1, ho2, _⟩ := shows_some hs
      rw [ho1] at h1
      cases he2 : entry d2 (lastName p :: q) with
      | none => rw [he2] at h1; cases h1
      | some e' =>
        obtain ⟨md', l'⟩ := e'
        rw [he2, Option.map_some, Option.map_some, ho2] at h1
        have := hitem _ _ (Option.some.inj h1)
        dsimp only at this
        subst this
        exact .inr ⟨md, md', l, rfl, rfl⟩
  obtain ⟨d', h2, _, h4⟩ := ran (env := env) he hS ho hr h hw hrun
  have hnc : ¬ Conflict args (view (look (dest args s p))) (fun r => entry d2 (lastName p :: r)) q := by
    rintro ⟨_, r, _, ⟨md, h1⟩, md', l', h3⟩
    dsimp only at h3
    rcases hview r with ⟨g, _⟩ | ⟨_, _, l, g1, g2⟩
    · rw [g] at h1; cases h1
    · rw [h1] at g1; rw [h3] at g2
      cases g1
      cases g2
  have haft := (h4 p hp q).2 hnc
  dsimp only at haft
  rw [hq] at haft
  obtain ⟨x, k1, k2, _, k4⟩ := haft
  rw [h2]
  refine ⟨x, k1, k2, ?_⟩
  by_cases hf : ∃ y, l = some (.file y)
  · exact k4 ht hf m rfl
  · have hkind : l = none ∨ ∃ t, l = some (.link t) := by
      cases l with
      | none => exact .inl rfl
      | some l =>
        cases l with
        | file y => exact absurd ⟨y, rfl⟩ hf
        | link t => exact .inr ⟨t, rfl⟩
        | other => exact absurd rfl hl
    obtain ⟨x', w1, w2⟩ := time_of (env := env) he hS ho hr h hw ht hrun hp hq (by
      rcases hview q with ⟨_, g⟩ | ⟨md, md', l', g1, g2⟩
      · rw [g] at hq; cases hq
      · rw [hq] at g2
        cases g2
        by_cases hmd : md = .posix m
        · subst hmd
          refine .inr ⟨⟨_, _, hkind, g1, hq⟩, fun n => ?_⟩
          beta_reduce
          rcases hview (q ++ [n]) with ⟨a, b⟩ | ⟨a, b, c, e, f⟩
          · rw [a, b]; trivial
          · rw [e, f]; exact sameItem_refl c
        · left
          rw [g1]
          rcases hkind with rfl | ⟨t, rfl⟩
          · simp [Timely.Fresh, hmd]
          · exact ⟨md, hmd, rfl⟩)
    rw [h2, k1] at w1
    cases w1
    exact w2

/-- After a restore with `--delete` and `--times` and then another, everything has the snapshot's contents
and time. -/
theorem twice (he : C33.EnvOk cenv) (hS : Sound C R) (ho : Opens R src) {d d' : Disk Id}
    (hr : d.reader = ReaderState.new) (h : RestoreOk C R cut look dangling args s d2 d.fs)
    (hw : args.dryRun = false) (ht : args.times = true) (hd : args.delete = true)
    (hm : Measured (now args s look)) (hm2 : Measured d2)
    {ops : List (SysOp Id)} {lines : List (DiffLine Id)}
    (hrun : restore C src cut look dangling args s = .ok (ops, lines))
    (hend : calls C.hash src cenv env ops d = (d', none))
    (hf : FoundOk C R cut look1 dangling1 args s d'.fs) :
    ∃ ops' lines' d'', restore C src cut look1 dangling1 args s = .ok (ops', lines') ∧
      calls C.hash src cenv env ops' { d' with reader := ReaderState.new } = (d'', none) ∧
      ∀ p ∈ s.paths, ∀ q,
        (entry d2 (lastName p :: q) = none → d''.fs (dest args s p ++ q) = none) ∧
        ∀ m l, entry d2 (lastName p :: q) = some (.posix m, l) → l ≠ some .other →
          ∃ x, d''.fs (dest args s p ++ q) = some x ∧ x.item = itemOf l ∧ x.mtime = m.mtime := by
  have hok := C74.again (look1 := look1) (dangling1 := dangling1) he hS ho hr h hw hm hm2 hrun
    (dk := d') ⟨ops, [], by simp, .inl hend⟩ hf
  obtain ⟨ops', lines', d'', g1, g2, _, g4⟩ := C39.reproduces (env := env) he hS ho
    (d := { d' with reader := ReaderState.new }) rfl hok hw hd
  refine ⟨ops', lines', d'', g1, g2, fun p hp q => ⟨fun hn => ?_, fun m l hq hl => ?_⟩⟩
  · have := g4 p hp q
    rw [hn] at this
    exact Option.map_eq_none_iff.mp this
  · have hsame : ∀ p ∈ s.paths, ∀ q, (d'.fs (dest args s p ++ q)).map Obj.item =
        (entry d2 (lastName p :: q)).map (fun e => itemOf e.2) := by
      obtain ⟨ops0, lines0, d0, e1, e2, _, e4⟩ := C39.reproduces (env := env) he hS ho hr h hw hd
      have := e1.symm.trans hrun
      cases this
      rw [hend] at e2
      cases e2
      exact e4
    have := settled (env := env) he hS ho (d := { d' with reader := ReaderState.new }) rfl hok hw ht g1 hsame hp hq hl
    rw [g2] at this
    exact this

/-- The directory whose time the first restore left at 7 (`stale_directory`) has the snapshot's, 0, after a second. -/
example : Demo.disk7.fs [[], [104]] = some ⟨.dir, 0o755, 7⟩ ∧
    ∃ ops lines d'', restore Demo.codec (Check.opened Demo.repoH) Demo.cut Demo.look7 (fun _ => false) (Demo.argsH true)
        Demo.snapH = .ok (ops, lines) ∧
      calls Demo.codec.hash (Check.opened Demo.repoH) Demo.env Demo.fsEnv7 ops { Demo.disk7 with reader := ReaderState.new } =
        (d'', none) ∧
      ∃ x, d''.fs [[], [104]] = some x ∧ x.item = .dir ∧ x.mtime = 0 := by
  obtain ⟨lines, hrun⟩ := Demo.runH
  refine ⟨Demo.top7, ?_⟩
  have hsame : ∀ q, (Demo.disk7.fs ([[], [104]] ++ q)).map Obj.item =
      (entry Demo.dirH ([104] :: q)).map (fun e => itemOf e.2) := by
    obtain ⟨ops0, lines0, d0, e1, e2, _, e4⟩ := C39.reproduces (env := Demo.fsEnv7) Demo.env_ok Demo.healthyH.sound
      (Check.opened_opens Demo.healthyH) (d := Demo.disk0) rfl (Demo.restoreOkH true) rfl rfl
    have := e1.symm.trans hrun
    cases this
    have := e2.symm.trans Demo.end7
    cases this
    exact e4 [[], [104]] (List.mem_singleton.mpr rfl)
  obtain ⟨ops', lines', d'', g1, g2, g3⟩ := twice (env := Demo.fsEnv7) Demo.env_ok Demo.healthyH.sound
    (Check.opened_opens Demo.healthyH) (d := Demo.disk0) rfl (Demo.restoreOkH true) rfl rfl rfl Demo.measuredH Demo.measured2
    hrun Demo.end7 (Demo.found7 hsame)
  exact ⟨ops', lines', d'', g1, g2, (g3 [[], [104]] (List.mem_singleton.mpr rfl) []).2 ⟨0o040755, none, 0, 0, 0, 0⟩ none rfl
    (by simp)⟩

/-- Not every directory has the snapshot's time: `/h` has it before, but a directory and a file in it are
removed and a file is made, and its metadata being as in the snapshot, nothing is done about its time. -/
theorem stale_directory : ∃ (s : Snapshot ObjectId) (d2 : Dir Bytes) (d : Disk ObjectId) (look : Look)
    (ops : List (SysOp ObjectId)) (lines : List (DiffLine ObjectId)) (env : FsEnv) (m : PosixMeta) (d' : Disk ObjectId)
    (x : Obj),
    RestoreOk Demo.codec Demo.repoH Demo.cut look (fun _ => false) (Demo.argsH true) s d2 d.fs ∧
    (Demo.argsH true).times = true ∧ (Demo.argsH true).delete = true ∧ d.reader = ReaderState.new ∧
    s.paths = [[[], [104]]] ∧ entry d2 [[104]] = some (.posix m, none) ∧
    restore Demo.codec (Check.opened Demo.repoH) Demo.cut look (fun _ => false) (Demo.argsH true) s = .ok (ops, lines) ∧
    calls Demo.codec.hash (Check.opened Demo.repoH) Demo.env env ops d = (d', none) ∧
    d'.fs [[], [104]] = some x ∧ x.item = .dir ∧ x.mtime ≠ m.mtime := by
  obtain ⟨lines, hrun⟩ := Demo.runH
  obtain ⟨d', h2, _, _⟩ := ran (env := ⟨fun _ => 7, 0o644, 0o755, 0o777⟩) Demo.env_ok Demo.healthyH.sound
    (Check.opened_opens Demo.healthyH) (d := Demo.disk0) rfl (Demo.restoreOkH true) rfl hrun
  have hx : (calls Demo.codec.hash (Check.opened Demo.repoH) Demo.env ⟨fun _ => 7, 0o644, 0o755, 0o777⟩ Demo.opsH
      Demo.disk0).1.fs [[], [104]] = some ⟨.dir, 0o755, 7⟩ := by decide +kernel
  rw [h2] at hx
  exact ⟨Demo.snapH, Demo.dirH, Demo.disk0, Demo.lookH, _, lines, _, _, d', _, Demo.restoreOkH true, rfl, rfl, rfl, rfl, rfl,
    hrun, h2, hx, rfl, by decide⟩

end Backpak.C92
