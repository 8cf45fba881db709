import Verif.Lemmas.RestoreCut
import Verif.Props.C39
import Verif.Props.C40
import Verif.Lemmas.DemoCut

/-!
# C74: a restore that was cut short can be finished by restoring again
-/

namespace Backpak.C74

open Spec

variable {Id : Type} [LinearOrder Id] {C : Codec Id} {R : Repo Id} {src : Source Id} {cut : Bytes → Nat}
  {look look1 : Look} {dangling dangling1 : Path → Bool} {args : RestoreArgs} {s : Snapshot Id} {d2 : Dir Bytes}
  {cenv : CacheEnv Id} {env : FsEnv}

/-- Wherever a restore is cut short, what it leaves is fit for another: in particular no file it has
written looks unmodified unless it has all of the snapshot's bytes. -/
theorem again (he : C33.EnvOk cenv) (hS : Sound C R) (ho : Opens R src) {d dk : Disk Id}
    (hr : d.reader = ReaderState.new) (h : RestoreOk C R cut look dangling args s d2 d.fs)
    (hw : args.dryRun = false) (hm : Measured (now args s look)) (hm2 : Measured d2)
    {ops : List (SysOp Id)} {lines : List (DiffLine Id)}
    (hrun : restore C src cut look dangling args s = .ok (ops, lines))
    (hcut : CutShort C.hash src cenv env ops d dk)
    (hf : FoundOk C R cut look1 dangling1 args s dk.fs) :
    RestoreOk C R cut look1 dangling1 args s d2 dk.fs := by
  let X : RCtx Id := ⟨C, R, src, cenv, env, args, he, hS, ho⟩
  obtain ⟨ops', lines', d', h1, h2, _, h4⟩ := restore_run X h hw rfl (by rw [hr]; exact C33.settled_new)
  have e1 : ops' = ops := by
    have := h1.symm.trans hrun
    cases this; rfl
  subst e1
  obtain ⟨ht, hin⟩ := restore_tidy X h hrun
  have henter : ∀ p ∈ s.paths, Enter dk.fs (dest args s p) := by
    intro p hp
    refine (h.enter p hp).mono (fun k hk => cut_outside hcut (fun op hop hpre => ?_))
    obtain ⟨p', hp', hd⟩ := hin op hop
    have hd' := hd.trans hpre
    by_cases e : lastName p' = lastName p
    · have : p' = p := List.inj_on_of_nodup_map h.distinct hp' hp e
      subst this
      exact not_prefix_take hk hd'
    · exact (dest_apart h.toRestoreBut hp' hp e).1 (hd'.trans (List.take_prefix _ _))
  refine ⟨⟨h.holds, h.kinds2, h.posix, h.tops, h.named, h.distinct, h.few, h.apart, hf.present, hf.single, hf.solid,
    henter, hf.seen, hf.plain, hf.kinds, hf.sorted, hf.fits, ?_, h.contract, hf.chunks, hf.trees⟩, h.datable⟩
  refine entry_faithful ?_ hf.sorted ?_
  · refine List.Nodup.sublist (names_listing _) ?_
    rw [List.map_map]
    exact h.distinct
  intro q md m x x0 hq hq0 hu
  obtain ⟨m1, rfl, hs1⟩ := hf.measured q md x hq
  obtain ⟨m2, rfl, hs2⟩ := hm2 q m x0 hq0
  have hlen : x.length = x0.length := by
    have := hu.2.2.1
    simp only [Meta.size, hs1, hs2, Option.some.injEq] at this
    exact this
  have hmt : m1.mtime = m2.mtime := by
    have := hu.2.2.2
    simpa only [Meta.mtime, Option.some.injEq] using this
  cases q with
  | nil => rw [entry_nil] at hq; cases hq
  | cons n q =>
    have hn : n ∈ d2.names := by
      by_contra hn
      rw [entry_cons, child_none.mpr hn] at hq0
      cases hq0
    obtain ⟨p, hp, rfl⟩ := h.tops n hn
    rw [entry_cons, now_child' h.distinct hp] at hq
    have hshow := hf.seen p hp q
    rw [hq] at hshow
    obtain ⟨o, ho1, ho2, _, ho4⟩ := shows_some hshow
    obtain ⟨i, mo, tm⟩ := o
    simp only [itemOf] at ho2
    subst ho2
    have htm : tm = m1.mtime := ho4 m1 rfl
    subst htm
    rcases cut_file ht hcut h2 ho1 with ⟨m0, g⟩ | ⟨y, k, g, rfl⟩
    · /- as before -/
      have hs0 := h.seen p hp q
      rw [g] at hs0
      cases hv : view (look (dest args s p)) q with
      | none => rw [hv] at hs0; exact hs0.elim
      | some e =>
        obtain ⟨md0, l0⟩ := e
        rw [hv] at hs0
        obtain ⟨k1, _, k3⟩ := hs0
        have hl0 : l0 = some (.file x) := by
          cases l0 with
          | none => cases k1
          | some l => cases l <;> cases k1; rfl
        subst hl0
        have hent : entry (now args s look) (lastName p :: q) = some (md0, some (.file x)) := by
          rw [entry_cons, now_child' h.distinct hp]; exact hv
        obtain ⟨mm, rfl, hsz⟩ := hm _ _ _ hent
        refine faithful_entry h.faithful hent hq0 ⟨kinds_entry h.kinds1 hent, hu.2.1, ?_, ?_⟩
        · simp only [Meta.size, hsz, hs2, hlen]
        · simp only [Meta.mtime, Option.some.injEq]
          rw [← hmt]
          exact (k3 mm rfl).symm
    · /- written -/
      obtain ⟨c1, c2⟩ := h4 p hp q
      have hnc : ¬ Conflict args (view (look (dest args s p))) (fun r => entry d2 (lastName p :: r)) q := by
        intro hc
        have hsame := c1 hc
        obtain ⟨_, r, hr1, ⟨mdr, hr2⟩, mdl, l, hr3⟩ := hc
        have := entry_under (q := lastName p :: q) hr3 (by simpa using hr1) (by rw [hq0]; simp)
        cases this
        have hs0 := h.seen p hp q
        rw [hr2] at hs0
        obtain ⟨o, w1, w2, _⟩ := shows_some hs0
        have hsame' : d'.fs (dest args s p ++ q) = d.fs (dest args s p ++ q) := hsame
        rw [hsame', w1, Option.map_some, w2] at g
        cases g
      have := c2 hnc
      dsimp only at this
      rw [hq0] at this
      obtain ⟨o, w1, w2, _⟩ := this
      have w1' : d'.fs (dest args s p ++ q) = some o := w1
      rw [w1', Option.map_some, w2] at g
      cases g
      have hk : x0.length ≤ k := by
        rw [List.length_take] at hlen
        omega
      exact List.take_of_length_le hk

/-- With `--delete`, the second restore succeeds and leaves at and below every destination what the
snapshot has there, and nothing else. -/
theorem finishes_partial (he : C33.EnvOk cenv) (hS : Sound C R) (ho : Opens R src) {d dk : Disk Id}
    (hr : d.reader = ReaderState.new) (h : RestoreOk C R cut look dangling args s d2 d.fs)
    (hw : args.dryRun = false) (hd : args.delete = true) (hm : Measured (now args s look)) (hm2 : Measured d2)
    {ops : List (SysOp Id)} {lines : List (DiffLine Id)}
    (hrun : restore C src cut look dangling args s = .ok (ops, lines))
    (hcut : CutShort C.hash src cenv env ops d dk)
    (hf : FoundOk C R cut look1 dangling1 args s dk.fs) :
    ∃ ops' lines' d', restore C src cut look1 dangling1 args s = .ok (ops', lines') ∧
      calls C.hash src cenv env ops' { dk with reader := ReaderState.new } = (d', none) ∧
      d'.elsewhere = dk.elsewhere ∧
      ∀ p ∈ s.paths, ∀ q,
        (d'.fs (dest args s p ++ q)).map Obj.item =
          (entry d2 (lastName p :: q)).map (fun e => itemOf e.2) :=
  have := again he hS ho hr h hw hm hm2 hrun hcut hf
  C39.reproduces he hS ho (d := { dk with reader := ReaderState.new }) rfl this hw hd

/-- A destination that is a directory, and is one in the snapshot, is one wherever the restore is cut
short: it is there for the second. -/
theorem directory_stays (he : C33.EnvOk cenv) (hS : Sound C R) (ho : Opens R src) {d dk : Disk Id}
    (hr : d.reader = ReaderState.new) (h : RestoreOk C R cut look dangling args s d2 d.fs)
    (hw : args.dryRun = false)
    {ops : List (SysOp Id)} {lines : List (DiffLine Id)}
    (hrun : restore C src cut look dangling args s = .ok (ops, lines))
    (hcut : CutShort C.hash src cenv env ops d dk) {p : Path} (hp : p ∈ s.paths)
    (hb : (d.fs (dest args s p)).map Obj.item = some .dir) {md : Meta} (ha : entry d2 [lastName p] = some (md, none)) :
    (dk.fs (dest args s p)).map Obj.item = some .dir := by
  let X : RCtx Id := ⟨C, R, src, cenv, env, args, he, hS, ho⟩
  obtain ⟨ops', lines', d', h1, h2, _, h4⟩ := restore_run X h hw rfl (by rw [hr]; exact C33.settled_new)
  have e1 : ops' = ops := by
    have := h1.symm.trans hrun
    cases this; rfl
  subst e1
  obtain ⟨ht, hin⟩ := restore_tidy X h hrun
  have hend : Fs.isDir (d'.fs (dest args s p)) = true := by
    have hnc : ¬ Conflict args (view (look (dest args s p))) (fun r => entry d2 (lastName p :: r)) [] := by
      rintro ⟨_, r, hr1, _, mdl, l, hr3⟩
      rw [List.prefix_nil.mp hr1] at hr3
      dsimp only at hr3
      rw [ha] at hr3
      cases hr3
    have := (h4 p hp []).2 hnc
    dsimp only at this
    rw [ha] at this
    obtain ⟨o, w1, w2, _⟩ := this
    have w1' : d'.fs (dest args s p ++ []) = some o := w1
    rw [List.append_nil] at w1'
    rw [w1', isDir_item, Option.map_some, w2]
    rfl
  refine isDir_item.mp (cut_dir ?_ hcut (isDir_item.mpr hb))
  rintro op hop r hpre rfl
  obtain ⟨p', hp', hd⟩ := hin _ hop
  have hpp : p' = p := by
    by_contra hne
    have hne' : lastName p' ≠ lastName p := fun e => hne (List.inj_on_of_nodup_map h.distinct hp' hp e)
    exact (dest_apart h.toRestoreBut hp' hp hne').1 (hd.trans hpre)
  subst hpp
  have hrd : r = dest args s p' := (List.IsPrefix.eq_of_length hpre (le_antisymm hpre.length_le hd.length_le))
  subst hrd
  obtain ⟨a, b, rfl⟩ := List.append_of_mem hop
  obtain ⟨d1, g1, g2⟩ := calls_split a h2
  obtain ⟨d3, g3, g4⟩ := calls_split [_] (show calls C.hash src cenv env ([_] ++ b) d1 = (d', none) from g2)
  have hway : Enter d1.fs (dest args s p') := by
    refine (h.enter p' hp).mono (fun k hk => ?_)
    refine cut_outside (H := C.hash) (src := src) (cenv := cenv) (env := env) (ops := a) ⟨a, [], by simp, .inl g1⟩
      (fun op ho hpr => ?_)
    obtain ⟨p'', hp'', hd'⟩ := hin op (List.mem_append_left _ ho)
    have hd'' := hd'.trans hpr
    by_cases e : lastName p'' = lastName p'
    · have := List.inj_on_of_nodup_map h.distinct hp'' hp e
      subst this
      exact not_prefix_take hk hd''
    · exact (dest_apart h.toRestoreBut hp'' hp e).1 (hd''.trans (List.take_prefix _ _))
  have hgone : Fs.isDir (d3.fs (dest args s p')) = false := by
    unfold calls call at g3
    rw [show (SysOp.rmAll (dest args s p') : SysOp Id).path = dest args s p' from rfl, hway.way] at g3
    unfold callHere at g3
    simp only [SysOp.path] at g3
    cases ho : d1.fs (dest args s p') with
    | none => simp only [ho] at g3; cases g3
    | some o =>
      obtain ⟨i, mo, t⟩ := o
      cases i <;> simp only [ho] at g3
      · cases g3
      · cases g3
        have : ∀ n, ((d1.fs.clear (dest args s p')).touchParent (dest args s p') n) (dest args s p') = none := by
          intro n
          unfold Fs.touchParent
          rw [if_neg (dropLast_ne hway.ne)]
          exact if_pos (by simp)
        dsimp only
        rw [this]
        rfl
      · cases g3
        dsimp only
        rw [put_touch_at hway.ne]
        rfl
      · cases g3
  have hlast := calls_notDir (H := C.hash) (src := src) (cenv := cenv) (env := env) (ops := b) (p := dest args s p')
    (fun op ho e => ((List.pairwise_cons.mp (List.pairwise_append.mp ht).2.1).1 op ho).2 _ rfl e) d3 hgone
  rw [g4, hend] at hlast
  cases hlast

theorem gather_fails {look : Look} {l : List Path} (hn : ∀ p ∈ l, fileName p ≠ none) {p : Path} (hp : p ∈ l)
    (h : look p = none) : gather look l = .error (.err "Couldn't read metadata") := by
  induction l with
  | nil => cases hp
  | cons a l ih =>
    unfold gather
    cases ha : fileName a with
    | none => exact absurd ha (hn a (by simp))
    | some n =>
      dsimp only
      cases hl : look a with
      | none => rfl
      | some c =>
        dsimp only
        rcases List.mem_cons.mp hp with rfl | hp
        · rw [h] at hl; cases hl
        · rw [ih (fun q hq => hn q (List.mem_cons_of_mem _ hq)) hp]

/-- In place, a destination that is no longer there makes the second restore fail. -/
theorem lost (hS : Sound C R) (ho : Opens R src) (hh : Holds C R s.tree d2) (hn : ∀ p ∈ s.paths, fileName p ≠ none)
    (hout : args.output = none) {p : Path} (hp : p ∈ s.paths) (h : look1 p = none) :
    restore C src cut look1 dangling1 args s = .error (.err "Couldn't read metadata") := by
  obtain ⟨F2, cache, l1, _⟩ := load hS ho hh
  unfold restore
  rw [l1]
  dsimp only
  unfold loadTarget
  rw [hout]
  simp only [gather_fails hn hp h]

/-- `/h/a` is a directory and is to be a file of three bytes. The restore is cut short when it has removed
the directory and written one byte; the next restore finishes it. -/
example : ∃ ops' lines' d', restore Demo.codec (Check.opened Demo.repoH) Demo.cut Demo.lookK (fun _ => false)
      (Demo.argsH true) Demo.snapH = .ok (ops', lines') ∧
    calls Demo.codec.hash (Check.opened Demo.repoH) Demo.env Demo.fsEnv0 ops'
      { Demo.diskK with reader := ReaderState.new } = (d', none) ∧
    (Demo.diskK.fs [[], [104], [97]]).map Obj.item = some (.file [1]) ∧
    (d'.fs [[], [104], [97]]).map Obj.item = some (.file [1, 2, 3]) ∧
    (d'.fs [[], [104], [122]]).map Obj.item = none := by
  obtain ⟨lines, hrun⟩ := Demo.runH
  obtain ⟨ops', lines', d', h1, h2, _, h4⟩ := finishes_partial (env := Demo.fsEnv0) Demo.env_ok Demo.healthyH.sound
    (Check.opened_opens Demo.healthyH) (d := Demo.disk0) (dk := Demo.diskK) rfl (Demo.restoreOkH true) rfl rfl
    Demo.measuredH Demo.measured2 hrun Demo.cutH Demo.foundK
  refine ⟨ops', lines', d', h1, h2, ?_, ?_, ?_⟩
  · exact congrArg (Option.map Obj.item) (Demo.put_eq Demo.disk2.fs Demo.aPath _)
  · exact h4 [[], [104]] (by simp [Demo.snapH]) [[97]]
  · exact h4 [[], [104]] (by simp [Demo.snapH]) [[122]]

/-- `/h`, which is the directory that is restored, is one throughout. -/
example : (Demo.diskK.fs [[], [104]]).map Obj.item = some .dir := by
  obtain ⟨lines, hrun⟩ := Demo.runH
  exact directory_stays (env := Demo.fsEnv0) Demo.env_ok Demo.healthyH.sound
    (Check.opened_opens Demo.healthyH) (d := Demo.disk0) (dk := Demo.diskK) rfl (Demo.restoreOkH true) rfl hrun
    Demo.cutH (p := [[], [104]]) (by simp [Demo.snapH]) rfl rfl

/-- Not every restore that is cut short can be finished so. `/h` is a file and is to be a directory: cut
short between removing the one and making the other, there is nothing at `/h`, and restoring again fails
whatever else is on the disk. -/
theorem not_finished : ∃ (look : Look) (s : Snapshot ObjectId) (d2 : Dir Bytes) (d dk : Disk ObjectId)
    (ops : List (SysOp ObjectId)) (lines : List (DiffLine ObjectId)),
    RestoreOk Demo.codec Demo.repoH Demo.cut look (fun _ => false) (Demo.argsH true) s d2 d.fs ∧
    restore Demo.codec (Check.opened Demo.repoH) Demo.cut look (fun _ => false) (Demo.argsH true) s = .ok (ops, lines) ∧
    CutShort Demo.codec.hash (Check.opened Demo.repoH) Demo.env Demo.fsEnv0 ops d dk ∧
    ∀ (look1 : Look) (dangling1 : Path → Bool), (∀ p, Seen look1 dk.fs p) →
      restore Demo.codec (Check.opened Demo.repoH) Demo.cut look1 dangling1 (Demo.argsH true) s =
        .error (.err "Couldn't read metadata") := by
  obtain ⟨rest, lines, hrun⟩ := Demo.runL
  refine ⟨Demo.lookL, Demo.snapH, Demo.dirH, Demo.diskL, Demo.diskL1, _, lines, Demo.restoreOkL, hrun,
    ⟨[.rmFile [[], [104]]], rest, rfl, .inl Demo.oneL⟩, fun look1 dangling1 hs => ?_⟩
  refine lost Demo.healthyH.sound (Check.opened_opens Demo.healthyH) Demo.holdsH (by decide) rfl
    (p := [[], [104]]) (by simp [Demo.snapH]) ?_
  have h0 := hs [[], [104]] []
  have hn : Demo.diskL1.fs ([[], [104]] ++ []) = none := rfl
  rw [hn] at h0
  cases hl : look1 [[], [104]] with
  | none => rfl
  | some c => rw [hl] at h0; exact h0.elim

end Backpak.C74
