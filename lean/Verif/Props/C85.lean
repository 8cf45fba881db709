import Verif.Lemmas.CheckForgery
import Verif.Lemmas.Genuine
import Verif.Lemmas.ReadingStat
import Verif.Model.Ls
import Verif.Props.C30
import Verif.Props.C39
import Verif.Props.C44

/-!
# C85 - A damaged repository gives no wrong files

`R` is the repository as it was, opened as `src`. `bad` is any source of packs at all: any index, any
lookup table, and packs of any contents - what a disk error left, or what somebody put there. What is
asked of it is that it serves no forgery: no bytes with the hash of a blob of `R` that are not that
blob. Then every command that reads files and succeeds does what it would have done before the damage.
-/

namespace Backpak.C85

open Spec Genuine

variable {Id : Type} [LinearOrder Id] {C : Codec Id} {R : Repo Id} {src bad : Source Id}

/-- The trees of a snapshot are all as they were, if they can be loaded. -/
theorem trees_same (hl : Local C.decTree) (hN : NoForgery C R bad) (hS : Sound C R) (ho : Opens R src) {s : Snapshot Id}
    (hs : Readable C R s) {F c : Forest Id} (h : forestFromRoot C bad s.tree (newTreeCache C) = .ok (F, c)) :
    ∃ c', forestFromRoot C src s.tree (newTreeCache C) = .ok (F, c') := by
  obtain ⟨d, hd⟩ := hs
  obtain ⟨c', h1, _⟩ := forest_same hl hN hS ho hd (newTreeCache_true hS) newTreeCache_ok h
  exact ⟨c', h1⟩

/-- What `ls` lists is what it would have listed. -/
theorem ls_same (hl : Local C.decTree) (hN : NoForgery C R bad) (hS : Sound C R) (ho : Opens R src) {s : Snapshot Id}
    (hs : Readable C R s) {l : List (Line Id)} (h : ls C bad s = .ok l) : ls C src s = .ok l := by
  unfold ls at h ⊢
  split at h
  · cases h
  rename_i F c h1
  obtain ⟨c', h2⟩ := trees_same hl hN hS ho hs h1
  rw [h2]
  exact h

/-- What `diff` of two snapshots prints is what it would have printed. -/
theorem diff_same (hl : Local C.decTree) (hN : NoForgery C R bad) (hS : Sound C R) (ho : Opens R src)
    {s1 s2 : Snapshot Id} (h1 : Readable C R s1) (h2 : Readable C R s2) {md : Bool} {l : List (DiffLine Id)}
    (h : diffSnapshots C bad md s1 s2 = .ok l) : diffSnapshots C src md s1 s2 = .ok l := by
  obtain ⟨d1, hd1⟩ := h1
  obtain ⟨d2, hd2⟩ := h2
  unfold diffSnapshots at h ⊢
  split at h
  · cases h
  rename_i F1 c1 a1
  obtain ⟨c1', b1, b2, b3⟩ := forest_same hl hN hS ho hd1 (newTreeCache_true hS) newTreeCache_ok a1
  rw [b1]
  dsimp only
  split at h
  · cases h
  rename_i F2 c2 a2
  obtain ⟨c2', b4, _⟩ := forest_same hl hN hS ho hd2 b2 b3 a2
  rw [b4]
  exact h

/-- What `snapshots --stat` shows is what it would have shown. -/
theorem stat_same (hl : Local C.decTree) (hN : NoForgery C R bad) (hS : Sound C R) (ho : Opens R src) {g : Graphemes}
    {md reverse : Bool} {wanted : Id → Bool} {snaps : List (Snap Id)} (hs : ∀ s ∈ snaps, Readable C R s.1)
    {out : List (Shown Id)} (h : showStat g C bad md reverse wanted snaps = .ok out) :
    showStat g C src md reverse wanted snaps = .ok out := by
  unfold showStat at h ⊢
  split at h
  · cases h
  rename_i fs hf
  rw [loadNeeded_same hl hN hS ho wanted hs (newTreeCache_true hS) newTreeCache_ok hf]
  exact h

/-- The same for `snapshots --sizes` and `--file-sizes`, with packs that are damaged and indexes that are not. -/
theorem sizes_same (hl : Local C.decTree) (hN : NoForgery C R bad) (hS : Sound C R) (ho : Opens R src)
    (hi : bad.index = src.index) {g : Graphemes} {stat files md reverse : Bool} {wanted : Id → Bool}
    {snaps : List (Snap Id)} (hs : ∀ s ∈ snaps, Readable C R s.1) {out : List (Shown Id)}
    (h : showSizes g C bad stat files md reverse wanted snaps = .ok out) :
    showSizes g C src stat files md reverse wanted snaps = .ok out := by
  unfold showSizes at h ⊢
  rw [hi] at h
  split at h
  · cases h
  rename_i sm hsm
  split at h
  · cases h
  rename_i ds hd
  rw [decorate_same hl hN hS ho sm hs (newTreeCache_true hS) newTreeCache_ok hd]
  exact h

/-- The same for `usage`. -/
theorem usage_same (hl : Local C.decTree) (hN : NoForgery C R bad) (hS : Sound C R) (ho : Opens R src)
    (hi : bad.index = src.index) {snaps : List (Snapshot Id)} (hs : ∀ s ∈ snaps, Readable C R s) {u : Usage}
    (h : usage C bad snaps = .ok u) : usage C src snaps = .ok u := by
  unfold usage at h ⊢
  rw [hi] at h
  split at h
  · cases h
  rename_i sm hsm
  split at h
  · cases h
  rename_i v z hz
  rw [usageLoop_same hl hN hS ho sm hs (newTreeCache_true hS) newTreeCache_ok hz]
  exact h

/-- What `dump` prints before it ends, in success or not, is what it would have printed, or the start of
it; and if it succeeds it is all of it. -/
theorem dump_same (hl : Local C.decTree) (hN : NoForgery C R bad) (hS : Sound C R) (ho : Opens R src)
    {env env' : CacheEnv Id} (he : C33.EnvOk env') {s : Snapshot Id} (hs : Readable C R s) (path : List Comp) :
    (dump C bad env s path).1 <+: (dump C src env' s path).1 ∧
      ((dump C bad env s path).2 = .ok () → dump C src env' s path = dump C bad env s path) := by
  obtain ⟨d, hd⟩ := hs
  exact dumpFrom_same hl hN hS ho he path [] s.tree _ _ d hd (newTreeCache_true hS) newTreeCache_ok

section Restore

variable {cut : Bytes → Nat} {look : Look} {dangling : Path → Bool} {args : RestoreArgs} {s : Snapshot Id} {d2 : Dir Bytes}
  {cenv : CacheEnv Id} {env : FsEnv}

/-- A restore that gets as far as writing makes the calls it would have made, and prints the same. -/
theorem restore_same (hl : Local C.decTree) (hN : NoForgery C R bad) (hS : Sound C R) (ho : Opens R src)
    (hs : Readable C R s) {r : Restored Id} (h : restore C bad cut look dangling args s = .ok r) :
    restore C src cut look dangling args s = .ok r := by
  unfold restore at h ⊢
  split at h
  · cases h
  rename_i F c h1
  obtain ⟨c', h2⟩ := trees_same hl hN hS ho hs h1
  rw [h2]
  exact h

/-- A restore with `--delete` from a damaged repository that succeeds leaves, at and below every
destination, what the snapshot had there, and nothing else. -/
theorem restores (hl : Local C.decTree) (hN : NoForgery C R bad) (hS : Sound C R) (ho : Opens R src)
    (hc : C33.EnvOk cenv) {d d' : Disk Id} (hr : d.reader = ReaderState.new)
    (h : RestoreOk C R cut look dangling args s d2 d.fs) (hw : args.dryRun = false) (hd : args.delete = true)
    {ops : List (SysOp Id)} {lines : List (DiffLine Id)} (h1 : restore C bad cut look dangling args s = .ok (ops, lines))
    {cenv' : CacheEnv Id} (h2 : calls C.hash bad cenv' env ops d = (d', none)) :
    d'.elsewhere = d.elsewhere ∧ ∀ p ∈ s.paths, ∀ q,
      (d'.fs (dest args s p ++ q)).map Obj.item = (entry d2 (lastName p :: q)).map (fun e => itemOf e.2) := by
  obtain ⟨ops', lines', dg, g1, g2, g3, g4⟩ := C39.reproduces (env := env) hc hS ho hr h hw hd
  rw [restore_same hl hN hS ho ⟨d2, h.holds⟩ h1] at g1
  cases g1
  have ha : Alike C R bad d d := ⟨rfl, rfl, rfl, by rw [hr]; exact fromPacks_new, by rw [hr]; exact stored_new⟩
  obtain ⟨b1, _, b3, _⟩ := calls_same hN hS ho ops ha h2 g2
  rw [b1, b3]
  exact ⟨g3, g4⟩

/-- In general, a restore that succeeds leaves the filesystem as one from the repository as it was. -/
theorem same_files (hN : NoForgery C R bad) (hS : Sound C R) (ho : Opens R src) {cenv' : CacheEnv Id} {ops : List (SysOp Id)}
    {d db dg : Disk Id} (hr : d.reader = ReaderState.new) (h : calls C.hash bad cenv' env ops d = (db, none))
    (h' : calls C.hash src cenv env ops d = (dg, none)) : db.fs = dg.fs ∧ db.elsewhere = dg.elsewhere := by
  have ha : Alike C R bad d d := ⟨rfl, rfl, rfl, by rw [hr]; exact fromPacks_new, by rw [hr]; exact stored_new⟩
  obtain ⟨b1, _, b3, _⟩ := calls_same hN hS ho ops ha h h'
  exact ⟨b1, b3⟩

end Restore

/-- A copy out of a damaged repository that gets through its reading stores in the destination exactly
what it would have stored, the same snapshots last. -/
theorem copy_same {env env' : CacheEnv Id} {ids : Ids Id} {w : World Id} {dst : Source Id} {snaps : List (Snap Id)}
    {filter : Path → Bool} {dry : Bool} (hl : Local C.decTree) (hN : NoForgery C R bad)
    (hC : CopyOk C env' ids R w src dst snaps) {P : Plan Id} (h : copyPlan C env w bad dst snaps filter dry = .ok P) :
    copyPlan C env' w src dst snaps filter dry = .ok P := by
  obtain ⟨P', h'⟩ := copy_succeeds hC filter dry
  rw [h', copyPlan_same hl hN hC.source.sound hC.fromOpens
    (fun sn hs => hC.source.readable _ _ (hC.loaded sn hs)) h h']

/-- A prune that gets through, with packs that are damaged and indexes that are not, packs the same chunks and trees and
removes the same packs and indexes as with the packs as they were: it never packs damaged content anew. -/
theorem prune_same {env env' : CacheEnv Id} {ids : Ids Id} {w : World Id} {snaps : List (Snap Id)} {dry : Bool}
    (hl : Local C.decTree) (hN : NoForgery C w.repo bad) (hP : PruneOk C env' ids w src snaps) (hi : bad.index = src.index)
    {P : Option (Plan Id)} (h : prunePlan C env w bad snaps dry = .ok P) : prunePlan C env' w src snaps dry = .ok P := by
  obtain ⟨P', h'⟩ := prune_succeeds hP dry
  rw [h', prunePlan_same hl hN hP.healthy.sound hP.opens hi
    (fun sn hs => hP.healthy.readable _ _ ((hP.loaded sn.2 sn.1).mpr hs)) h h']

/-- A backup that gets through, with packs that are damaged and indexes that are not, stores what it would have stored:
nothing wrong, and nothing anew because what the packs have of it is damaged. -/
theorem backup_same (hl : Local C.decTree) (hN : NoForgery C R bad) (hS : Sound C R) (ho : Opens R src)
    (hi : bad.index = src.index) {w : World Id} {snaps : List (Snap Id)} {a : BackupArgs} {cut : Bytes → Nat}
    (hp : ∀ p, parentSnapshot a.paths snaps = some p → Readable C R p) {P : Plan Id}
    (h : backupPlan C cut w bad snaps a = .ok P) : backupPlan C cut w src snaps a = .ok P := by
  have hF : ∀ F, parentForest C bad (parentSnapshot a.paths snaps) = .ok F →
      parentForest C src (parentSnapshot a.paths snaps) = .ok F := by
    intro F hF
    cases hs : parentSnapshot a.paths snaps with
    | none => rw [hs] at hF; exact hF
    | some p =>
      rw [hs] at hF
      unfold parentForest at hF ⊢
      dsimp only at hF ⊢
      obtain ⟨d, hd⟩ := hp p hs
      cases hb : forestFromRoot C bad p.tree (newTreeCache C) with
      | error e => rw [hb] at hF; cases hF
      | ok r =>
        rw [hb] at hF
        cases hF
        obtain ⟨c', h1, _⟩ := forest_same hl hN hS ho hd (newTreeCache_true hS) newTreeCache_ok hb
        rw [h1]
        rfl
  unfold backupPlan at h ⊢
  rw [hi] at h
  dsimp only at h ⊢
  cases hb : parentForest C bad (parentSnapshot a.paths snaps) with
  | error e => rw [hb] at h; cases h
  | ok F =>
    rw [hb] at h
    rw [hF F hb]
    exact h

/-! ## Snapshot files -/

theorem one_version {O : Serde.OldTime} {v : Cbor} {s s' : Snapshot ObjectId} (h : Serde.asSnapshot v = some s)
    (h' : Serde.asSnapshotV1 O v = some s') : False := by
  unfold Serde.asSnapshot at h
  unfold Serde.asSnapshotV1 at h'
  simp only [Option.bind_eq_bind, Option.bind_eq_some_iff] at h h'
  obtain ⟨fs, h1, c, h2, n, h3, _⟩ := h
  obtain ⟨fs', h1', c', h2', x, h3', _⟩ := h'
  rw [h1] at h1'
  cases h1'
  rw [h2] at h2'
  cases h2'
  cases c <;> simp [Serde.asInt, Serde.asText] at h3 h3'

/-- Two files that load as one snapshot ID load as the same snapshot, whatever their versions, unless
pieces of them collide. -/
theorem snapshot_same {H : Bytes → ObjectId} {O : Serde.OldTime} {id : ObjectId} {f f' : Bytes} {s s' : Snapshot ObjectId}
    (hH : ∀ x y, x <:+: f → y <:+: f' → H x = id → H y = id → x = y)
    (h : Check.loadSnapshot H O id f = .ok s) (h' : Check.loadSnapshot H O id f' = .ok s') : s = s' := by
  obtain ⟨u, r, h1, h2⟩ := Intact.loadSnapshot_ok h
  obtain ⟨u', r', h1', h2'⟩ := Intact.loadSnapshot_ok h'
  have hu : u = u' := by
    refine hH u u' ?_ ?_ h2 h2'
    · rcases h1 with ⟨h1, _⟩ | ⟨h1, _⟩ <;> rw [h1] <;> exact ⟨_, r, rfl⟩
    · rcases h1' with ⟨h1, _⟩ | ⟨h1, _⟩ <;> rw [h1] <;> exact ⟨_, r', rfl⟩
  subst hu
  have mixed : ∀ {s s' : Snapshot ObjectId}, Serde.decSnapshot u = some (s, []) →
      Serde.decSnapshotV1 O u = some (s', []) → False := by
    intro s s' a b
    unfold Serde.decSnapshot Serde.read at a
    unfold Serde.decSnapshotV1 Serde.read at b
    cases hd : Cbor.dec Cbor.limit u with
    | none => rw [hd] at a; cases a
    | some p =>
      rw [hd] at a b
      obtain ⟨_, a, _⟩ := Option.map_eq_some_iff.mp a
      obtain ⟨_, b, _⟩ := Option.map_eq_some_iff.mp b
      exact one_version a b
  rcases h1 with ⟨_, h1⟩ | ⟨_, h1⟩ <;> rcases h1' with ⟨_, h1'⟩ | ⟨_, h1'⟩
  · rw [h1] at h1'; cases h1'; rfl
  · exact (mixed h1 h1').elim
  · exact (mixed h1' h1).elim
  · rw [h1] at h1'; cases h1'; rfl

/-! ## Examples -/

/-- A source that gives every pack of `R` after `f`. -/
def changed (R : Repo ObjectId) (f : Bytes → Stream) : Source ObjectId :=
  { Check.opened R with
    read := fun p => match R.packs.get? p with
      | some bs => .ok (f (Pack.contentOf bs))
      | none => .error (.err "no such pack") }

theorem changed_ok {R : Repo ObjectId} {f : Bytes → Stream} (h : ∀ e ∈ R.packs,
    Demo.piecesOk (Demo.targetsOf R) (f (Pack.contentOf e.2)).data = true) : NoForgery Demo.codec R (changed R f) := by
  refine Demo.noForgery fun p s hs => ?_
  unfold changed at hs
  dsimp only at hs
  split at hs
  · rename_i bs hb
    cases hs
    exact h _ (BMap.mem_of_get? hb)
  · cases hs

/-- Every pack followed by other bytes, and then by a read error. -/
def longer : Bytes → Stream := fun x => ⟨x ++ [9, 9], true⟩

/-- Another first byte, in the pack of the file's chunk. -/
def altered : Bytes → Stream := fun x => ⟨if x.head? = some 1 then 7 :: x.tail else x, false⟩

set_option maxRecDepth 100000 in
theorem longer_ok : NoForgery Demo.codec Demo.repoH (changed Demo.repoH longer) := changed_ok (by decide +kernel)

set_option maxRecDepth 100000 in
theorem altered_ok : NoForgery Demo.codec Demo.repoH (changed Demo.repoH altered) := changed_ok (by decide +kernel)

theorem demo_local : Local Demo.codec.decTree := Serde.read_local _

/-- Where every pack ends in a read error, the file is still printed as it was. -/
example : dump Demo.codec (Check.opened Demo.repoH) Demo.env Demo.snapH [.normal [104], .normal [97]] =
    ([.file [1, 2, 3]], .ok ()) := by
  have h : dump Demo.codec (changed Demo.repoH longer) Demo.env Demo.snapH [.normal [104], .normal [97]] =
    ([.file [1, 2, 3]], .ok ()) := by decide +kernel
  rw [← h]
  exact (dump_same demo_local longer_ok Demo.healthyH.sound (Check.opened_opens Demo.healthyH) Demo.env_ok
    ⟨_, Demo.holdsH⟩ _).2 (by rw [h])

/-- With another byte in its chunk nothing of it is printed; its name is still listed. -/
example : (dump Demo.codec (changed Demo.repoH altered) Demo.env Demo.snapH [.normal [104], .normal [97]]).1 = [] ∧
    Demo.isOk (dump Demo.codec (changed Demo.repoH altered) Demo.env Demo.snapH [.normal [104], .normal [97]]).2 = false ∧
    ∃ l, ls Demo.codec (changed Demo.repoH altered) Demo.snapH = .ok l ∧ l.length = 2 ∧
      ls Demo.codec (Check.opened Demo.repoH) Demo.snapH = .ok l := by
  refine ⟨by decide +kernel, by decide +kernel, ?_⟩
  have h : ((ls Demo.codec (changed Demo.repoH altered) Demo.snapH).toOption.map List.length) = some 2 := by
    decide +kernel
  cases hl : ls Demo.codec (changed Demo.repoH altered) Demo.snapH with
  | error e => rw [hl] at h; cases h
  | ok l =>
    rw [hl] at h
    exact ⟨l, rfl, Option.some.inj h, ls_same demo_local altered_ok Demo.healthyH.sound
      (Check.opened_opens Demo.healthyH) ⟨_, Demo.holdsH⟩ hl⟩

set_option maxRecDepth 100000 in
/-- Usage where every pack ends in a read error. -/
example : ∃ u, usage Demo.codec (changed Demo.repoH longer) [Demo.snapH] = .ok u ∧ 0 < u.unique ∧
    usage Demo.codec (Check.opened Demo.repoH) [Demo.snapH] = .ok u := by
  have h : ((usage Demo.codec (changed Demo.repoH longer) [Demo.snapH]).toOption.map fun u => decide (0 < u.unique)) =
      some true := by decide +kernel
  cases hu : usage Demo.codec (changed Demo.repoH longer) [Demo.snapH] with
  | error e => rw [hu] at h; cases h
  | ok u =>
    rw [hu] at h
    refine ⟨u, rfl, of_decide_eq_true (Option.some.inj h), usage_same demo_local longer_ok Demo.healthyH.sound
      (Check.opened_opens Demo.healthyH) rfl (fun s hs => ?_) hu⟩
    rw [List.mem_singleton.mp hs]
    exact ⟨_, Demo.holdsH⟩

/-- A restore from the packs that end in read errors. -/
def restored : Option (List (SysOp ObjectId) × List (DiffLine ObjectId)) :=
  match restore Demo.codec (changed Demo.repoH longer) Demo.cut Demo.lookH (fun _ => false) (Demo.argsH true) Demo.snapH with
  | .ok r => if (calls Demo.codec.hash (changed Demo.repoH longer) Demo.env ⟨fun n => n, 0o644, 0o755, 0o777⟩ r.1
      ⟨Demo.fsH, 0, ReaderState.new, []⟩).2.isNone then some r else none
  | .error _ => none

set_option maxRecDepth 100000 in
theorem restored_some : restored.isSome = true := by decide +kernel

example : ∃ ops lines d', restore Demo.codec (changed Demo.repoH longer) Demo.cut Demo.lookH (fun _ => false)
      (Demo.argsH true) Demo.snapH = .ok (ops, lines) ∧
    calls Demo.codec.hash (changed Demo.repoH longer) Demo.env ⟨fun n => n, 0o644, 0o755, 0o777⟩ ops
      ⟨Demo.fsH, 0, ReaderState.new, []⟩ = (d', none) ∧
    (d'.fs [[], [104], [97]]).map Obj.item = some (.file [1, 2, 3]) := by
  have h := restored_some
  unfold restored at h
  split at h
  · rename_i r hr
    split at h
    · rename_i hn
      obtain ⟨ops, lines⟩ := r
      cases hd : calls Demo.codec.hash (changed Demo.repoH longer) Demo.env ⟨fun n => n, 0o644, 0o755, 0o777⟩ ops
        ⟨Demo.fsH, 0, ReaderState.new, []⟩ with
      | mk d' e =>
        rw [hd] at hn
        cases e with
        | some e => cases hn
        | none =>
          have h4 := (restores demo_local longer_ok Demo.healthyH.sound (Check.opened_opens Demo.healthyH) Demo.env_ok rfl
            (Demo.restoreOkH true) rfl rfl hr hd).2 [[], [104]] List.mem_cons_self [[97]]
          exact ⟨ops, lines, d', hr, hd, h4⟩
    · cases h
  · cases h

set_option maxRecDepth 100000 in
theorem longerAB : NoForgery Demo.codec Demo.repoAB (changed Demo.repoAB longer) := changed_ok (by decide +kernel)

/-- A copy out of packs that end in read errors stores what a copy would have stored before. -/
example : copyPlan Demo.codec Demo.env Demo.world0 (changed Demo.repoAB longer) Demo.src0 (Demo.snapsOf Demo.repoAB)
      C30.noB false = .ok C30.plan1 := by
  have h : Demo.isOk (copyPlan Demo.codec Demo.env Demo.world0 (changed Demo.repoAB longer) Demo.src0
      (Demo.snapsOf Demo.repoAB) C30.noB false) = true := by decide +kernel
  cases hp : copyPlan Demo.codec Demo.env Demo.world0 (changed Demo.repoAB longer) Demo.src0 (Demo.snapsOf Demo.repoAB)
      C30.noB false with
  | error e => rw [hp] at h; cases h
  | ok P =>
    have := copy_same demo_local longerAB (C30.copyOk_of Demo.healthyAB) hp
    rw [C30.plan1_eq] at this
    rw [this]

set_option maxRecDepth 100000 in
theorem longerA : NoForgery Demo.codec Demo.repoA (changed Demo.repoA longer) := changed_ok (by decide +kernel)

set_option maxRecDepth 100000 in
/-- A prune of packs that end in read errors packs and removes what it would have before. -/
example : ∃ P, prunePlan Demo.codec Demo.env (Demo.clean Demo.repoA) (changed Demo.repoA longer) (Demo.snapsOf Demo.repoA)
      false = .ok P ∧ P = some Demo.planA := by
  have h : Demo.isOk (prunePlan Demo.codec Demo.env (Demo.clean Demo.repoA) (changed Demo.repoA longer)
      (Demo.snapsOf Demo.repoA) false) = true := by decide +kernel
  cases hp : prunePlan Demo.codec Demo.env (Demo.clean Demo.repoA) (changed Demo.repoA longer) (Demo.snapsOf Demo.repoA)
      false with
  | error e => rw [hp] at h; cases h
  | ok P =>
    have := prune_same (src := Check.opened Demo.repoA) (bad := changed Demo.repoA longer) demo_local longerA
      Demo.pruneOkA rfl hp
    rw [Demo.planA_eq] at this
    cases this
    exact ⟨_, rfl, rfl⟩

/-- Two files of one snapshot: one has bytes after its record. -/
example : ∀ x y, x <:+: Serde.snapshotFile Demo.snapH → y <:+: Serde.snapshotFile Demo.snapH ++ [9] →
    Demo.hash x = Demo.hash (Serde.encSnapshot Demo.snapH) → Demo.hash y = Demo.hash (Serde.encSnapshot Demo.snapH) →
    x = y := by
  have h : Demo.piecesOk [(Demo.hashVal (Serde.encSnapshot Demo.snapH), Serde.encSnapshot Demo.snapH)]
      (Serde.snapshotFile Demo.snapH ++ [9]) = true := by decide +kernel
  intro x y hx hy h1 h2
  rw [Demo.piecesOk_sound h (hx.trans (List.prefix_append _ _).isInfix) _ List.mem_cons_self (Demo.hashVal_same h1),
    Demo.piecesOk_sound h hy _ List.mem_cons_self (Demo.hashVal_same h2)]

end Backpak.C85
