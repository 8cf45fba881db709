import Verif.Props.C27
import Verif.Props.C32
import Verif.Props.C67

/-!
# C109 - Check finds nothing wrong with what commands leave

The full claim is: whatever commands have run, and wherever they were stopped, `check` finds nothing wrong with the files they
leave.

Missing: what is missing in `C27`, `C25` and `C65`, namely a backup after an interrupted prune, rebuild-index when a blob is in two
packs, and backups that add the same blob at once; the repository is then broken, and of rebuild-index `rebuild_breaks` proves
that the claim is false.
-/

namespace Backpak.C109

open Spec Pipeline Check Rebuilding

variable {Z : Zstd} {H : Bytes → ObjectId} {O : Serde.OldTime} {cut : Bytes → Nat} {cores : Nat} {S : Stored}

/-- After any history of commands, stopped anywhere as `C27` allows, check passes, with or without reading the packs, in whatever
order the storage lists its files. -/
theorem history_partial {w w' : World ObjectId} (hH : Healthy (Codec.real H) (Ids.real H) w.repo)
    (hL : Leftover (Codec.real H) (Ids.real H) w)
    (h : Relation.ReflTransGen (C27.Ran (Codec.real H) cut (Ids.real H) cores) w w')
    (hw : Written Z H w'.repo S) (b : Bool) : check Z H O b S = .ok () :=
  C32.complete hw (C27.history_partial hH hL h).1 b

/-- At every instant of a prune that resumes any number of interrupted ones, check passes. -/
theorem pruning_partial {w w' : World ObjectId} (hH : Healthy (Codec.real H) (Ids.real H) w.repo)
    (hL : PruneLeft (Codec.real H) (Ids.real H) w)
    (hE : ∀ x, ¬ Has (Codec.real H) w.repo ⟨x, (Codec.real H).emptyId, .chunk⟩)
    (h : Relation.ReflTransGen (C25.Pruned (Codec.real H) (Ids.real H) cores) w w')
    (hw : Written Z H w'.repo S) (b : Bool) : check Z H O b S = .ok () :=
  C32.complete hw (C25.resumed_keeps_partial hH hL hE h).1 b

section Beside

variable {ι : Type} [DecidableEq ι] {R0 : Repo ObjectId} {U : Pack ObjectId → Prop} {X : Index ObjectId → Prop}
  {T : Snapshot ObjectId → Prop}

/-- At every instant of any number of backups at once, check passes. -/
theorem backing_up_partial (hU : C65.Apart (Ids.real H) U X T) (hH : Healthy (Codec.real H) (Ids.real H) R0)
    (hK : C65.Known (Ids.real H) U X T R0) {m : Shared ι ObjectId}
    (h : Shared.Reachable (C65.Allowed (Codec.real H) cut (Ids.real H) cores U X T) R0 m) (hd : C65.Disjoint m)
    (hw : Written Z H m.repo S) (b : Bool) : check Z H O b S = .ok () :=
  C32.complete hw (C65.always_healthy_partial hU hH hK h hd).1 b

/-- At every instant of any number of backups beside a rebuild-index, check passes. -/
theorem rebuilding_partial (hU : C65.Apart (Ids.real H) U X T) (hH : Healthy (Codec.real H) (Ids.real H) R0)
    (hK : C65.Known (Ids.real H) U X T R0) (hT : Tidy R0) {m : Mixed ι ObjectId}
    (h : Mixed.Reachable (Ids.real H) (C67.May (Codec.real H) cut (Ids.real H) cores U X T R0) R0 m)
    (ht : Together (Ids.real H) X R0 m) (hw : Written Z H m.shared.repo S) (b : Bool) :
    check Z H O b S = .ok () :=
  C32.complete hw (C67.always_healthy hU hH hK hT h ht).1 b

end Beside

/-- If check passes then every other command can open the repository too. -/
theorem passes_opens {R : Repo ObjectId} (hw : Written Z H R S) (hs : BMap.Sorted R.packs) {b : Bool}
    (h : check Z H O b S = .ok ()) : ∃ src, Opens R src := by
  obtain ⟨ix, bm, cs, h1, h2, _⟩ := C32.did h
  obtain ⟨files, hp, hx⟩ := Written.openIndex_written hw
  refine ⟨⟨ix, bm, openPack Z S⟩, ⟨files, hp, hx.symm.trans h1⟩, h2, ?_, ?_⟩
  · exact fun p bs h => Written.openPack_written hw hs h
  · intro p hp
    refine ⟨"Couldn't open", ?_⟩
    show openPack Z S p = _
    unfold openPack
    rw [Written.getFile_absent (fun h => hp ((Written.stored_packs_keys hw).mem_iff.mp h))]

/-- The claim is false of rebuild-index: once it has finished in a repository where a blob is in two packs, check fails. -/
theorem rebuilt_fails {w w' : World ObjectId} (hp : BMap.Sorted w.repo.packs) (hx : BMap.Sorted w.repo.indexes)
    (hnew : C28.NewName (Ids.real H) w.repo) (h : Rebuild.Finished (Ids.real H) true w w')
    (htwice : ¬ (w.repo.packs.flatMap (fun e => e.2.map Blob.id)).Nodup) (hw : Written Z H w'.repo S) (b : Bool) :
    check Z H O b S ≠ .ok () := by
  intro hc
  refine htwice ((C28.usable_iff w w' hp hx hnew h).mp (passes_opens hw ?_ hc))
  rw [(C28.finished_repo hp hx hnew h).1]
  exact hp

/-- A repository in good order, beside whose packs lies one that nothing lists, with a copy of a chunk. -/
def stray : Repo ObjectId :=
  ⟨BMap.insert (Demo.realIds.packId (Pack.manifestOf [Demo.chunkA])) [Demo.chunkA] Demo.filesAB.packs,
    Demo.filesAB.indexes, Demo.filesAB.snapshots⟩

theorem healthy_stray : Healthy Demo.codec Demo.realIds stray := Check.healthy_sound (k := 2) (by decide +kernel)

theorem new_stray : C28.NewName Demo.realIds stray := by
  have h : Demo.realIds.indexId (C28.whole stray) ∉ BMap.keys stray.indexes ∧
      ∀ e ∈ stray.indexes, Demo.realIds.indexId (C28.whole stray) ∉ e.2.supersedes := by decide +kernel
  exact ⟨h.1, fun ⟨j, y, h1, h2⟩ => h.2 (j, y) h1 h2⟩

/-- Check passes; rebuild-index succeeds; and then check fails. -/
theorem rebuild_breaks : check Toy.zstd Demo.hash (fun _ => none) true (Demo.store stray) = .ok () ∧
    ∃ w', Rebuild.Finished Demo.realIds true (Demo.clean stray) w' ∧ Written Toy.zstd Demo.hash w'.repo (Demo.store w'.repo) ∧
      check Toy.zstd Demo.hash (fun _ => none) true (Demo.store w'.repo) ≠ .ok () := by
  refine ⟨C32.complete (Demo.written_store (by decide +kernel)) healthy_stray true, ?_⟩
  obtain ⟨t, x, h1, h2⟩ := C28.finishes (ids := Demo.realIds) (live := true) (Demo.clean stray) healthy_stray.packs_sorted
    (.inl (show stray.packs ≠ [] by decide +kernel)) (Rebuild.init _) .refl
  obtain ⟨w', hf⟩ : ∃ w', Rebuild.Finished Demo.realIds true (Demo.clean stray) w' := ⟨_, .mk t x h1 h2⟩
  have hr := (C28.finished_repo (w := Demo.clean stray) healthy_stray.packs_sorted healthy_stray.indexes_sorted new_stray hf).1
  have hw : Written Toy.zstd Demo.hash w'.repo (Demo.store w'.repo) := by
    rw [hr]
    exact Demo.written_store (by decide +kernel)
  have htwice : ¬ ((Demo.clean stray).repo.packs.flatMap (fun e => e.2.map Blob.id)).Nodup := by decide +kernel
  exact ⟨w', hf, hw, rebuilt_fails (H := Demo.hash) (w := Demo.clean stray) healthy_stray.packs_sorted
    healthy_stray.indexes_sorted new_stray hf htwice hw true⟩

/-- Two snapshots, of which one is forgotten, then the other; both times check passes. -/
example : ∀ l, l.Sublist Demo.filesAB.snapshots → Demo.fits { Demo.filesAB with snapshots := l } = true →
    check Toy.zstd Demo.hash (fun _ => none) true (Demo.store { Demo.filesAB with snapshots := l }) = .ok () := by
  intro l hl hf
  have hr : C27.Ran Demo.codec Demo.cut Demo.realIds 4 (Demo.clean Demo.filesAB)
      ⟨{ Demo.filesAB with snapshots := l }, (Demo.clean Demo.filesAB).cwd⟩ := .forget hl
  exact history_partial (H := Demo.hash) (w := Demo.clean Demo.filesAB) Demo.healthy_filesAB
    (Demo.leftover_clean Demo.healthy_filesAB) (.single hr) (Demo.written_store hf) true

/-- The hypotheses of the example are met by leaving either of two snapshots out. -/
example : Demo.filesAB.snapshots.length = 2 ∧
    Demo.fits { Demo.filesAB with snapshots := Demo.filesAB.snapshots.take 1 } = true ∧
    Demo.fits { Demo.filesAB with snapshots := Demo.filesAB.snapshots.drop 1 } = true ∧
    (Demo.store { Demo.filesAB with snapshots := Demo.filesAB.snapshots.take 1 }).snapshots.length = 1 := by
  decide +kernel

end Backpak.C109
