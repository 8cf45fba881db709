import Verif.Lemmas.Beside
import Verif.Props.C69
import Verif.Props.C86

/-!
# A backup onto a repository some of whose snapshots cannot be read
-/

namespace Backpak.Mend

open Spec Pipeline
open Beside (Orderly)

variable {Id : Type} [LinearOrder Id] {C : Codec Id} {cut : Bytes → Nat} {ids : Ids Id} {cores : Nat} {w : World Id}
  {src : Source Id} {snaps : List (Snap Id)} {a : BackupArgs} {plan : Plan Id}

theorem orderly_sound {R : Repo Id} (h : Orderly C ids R) : Sound C R :=
  ⟨h.packs_sorted, h.indexes_sorted, h.present, h.distinct, h.once, h.one_kind, h.hashes, h.trees, h.full⟩

theorem orderly_healthy {R : Repo Id} (h : Orderly C ids R) (hs : BMap.Sorted R.snapshots)
    (hr : ∀ i sn, (i, sn) ∈ R.snapshots → Readable C R sn) : Healthy C ids R :=
  ⟨h.packs_sorted, h.indexes_sorted, hs, h.pack_names, h.index_names, h.index_packs, h.present, h.distinct, h.once,
    h.one_kind, h.hashes, h.trees, h.full, hr⟩

/-- A run does not look at the snapshots. -/
def noSnaps (w : World Id) : World Id := ⟨{ w.repo with snapshots := [] }, w.cwd⟩

/-- See `noSnaps`. -/
def hush (s : State Id) : State Id := { s with world := noSnaps s.world }

theorem putItem_hush (r : Repo Id) (i : Item Id) :
    { putItem r i with snapshots := [] } = putItem { r with snapshots := [] } i := by cases i <;> rfl

theorem putItem_snaps (r : Repo Id) (i : Item Id) : (putItem r i).snapshots = r.snapshots := by cases i <;> rfl

theorem step_hush {c : Cfg Id} {s t : State Id} (h : Step c s t) : Step c (hush s) (hush t) := by
  cases h with
  | spawn h1 h2 => exact .spawn (hush s) h1 h2
  | mainUp p bs rest h1 h2 h3 h4 => exact .mainUp (hush s) p bs rest h1 h2 h3 h4
  | mainSend b cur rest h1 h2 h3 => exact .mainSend (hush s) b cur rest h1 h2 h3
  | close h1 h2 => exact .close (hush s) h1 h2
  | endPack k cur h1 h2 h3 h4 => exact .endPack (hush s) k cur h1 h2 h3 h4
  | packerExit k cur h1 h2 h3 h4 => exact .packerExit (hush s) k cur h1 h2 h3 h4
  | packerUp k id bs h1 h2 h3 => exact .packerUp (hush s) k id bs h1 h2 h3
  | packerIdx k id bs x h1 h2 h3 h4 => exact .packerIdx (hush s) k id bs x h1 h2 h3 h4
  | packerDup k id bs x h1 h2 h3 h4 => exact .packerDup (hush s) k id bs x h1 h2 h3 h4
  | ixPersist x h1 h2 => exact .ixPersist (hush s) x h1 h2
  | ixEmpty x h1 h2 h3 h4 h5 => exact .ixEmpty (hush s) x h1 h2 h3 h4 h5
  | ixClosed x h1 h2 h3 h4 h5 => exact .ixClosed (hush s) x h1 h2 h3 h4 h5
  | ixPersistLast x h1 => exact .ixPersistLast (hush s) x h1
  | ixCopy x h1 => exact .ixCopy (hush s) x h1
  | ixUp x h1 h2 h3 => exact .ixUp (hush s) x h1 h2 h3
  | upStore i h1 h2 =>
    have := Step.upStore (hush s) i h1 h2
    simp only [hush, noSnaps, putItem_hush] at this ⊢
    exact this
  | upDrop i h1 => exact .upDrop (hush s) i h1
  | upMove i h1 h2 =>
    have := Step.upMove (hush s) i h1 h2
    simp only [hush, noSnaps, putItem_hush] at this ⊢
    exact this
  | upDiscard i h1 h2 => exact .upDiscard (hush s) i h1 h2
  | upExit h1 h2 h3 h4 h5 h6 => exact .upExit (hush s) h1 h2 h3 h4 h5 h6
  | join h1 h2 h3 h4 h5 h6 h7 => exact .join (hush s) h1 h2 h3 h4 h5 h6 h7

theorem reachable_hush {c : Cfg Id} {main : List (Op Id)} {s : State Id} (h : Reachable c w main s) :
    Reachable c (noSnaps w) main (hush s) := by
  induction h with
  | refl => exact .refl
  | tail _ hs ih => exact ih.tail (step_hush hs)

theorem snaps_same {c : Cfg Id} {main : List (Op Id)} {s : State Id} (h : Reachable c w main s) :
    s.world.repo.snapshots = w.repo.snapshots := by
  induction h with
  | refl => rfl
  | tail _ hs ih =>
    cases hs <;> first | exact ih | exact (putItem_snaps _ _).trans ih

/-- A live run that adds fresh blobs, as `add_run`, but that snapshots may need what is gone. -/
theorem orderly_run {start : Index Id} {here : List Id} {ss : List (Blob Id)} (hH : Orderly C ids w.repo)
    (hL : Leftover C ids w) (hres : resumeFrom w = .ok (start, here)) (hf : Fresh C (Counts w) ss)
    (hinj : PacksDiffer ids w (mainOf here ss)) (hx : IndexOk (liveCfg ids cores start) w.repo ss)
    {s : State Id} (h : Reachable (liveCfg ids cores start) w (mainOf here ss) s) :
    Orderly C ids s.world.repo ∧ Leftover C ids s.world ∧ s.world.repo.snapshots = w.repo.snapshots ∧
    (∀ b, Has C w.repo b → Has C s.world.repo b) ∧
    (s.joined = true → ∀ b, (b ∈ ss ∨ ∃ p bs, Counts w p bs ∧ b ∈ bs) → Has C s.world.repo b) := by
  obtain ⟨g1, g2, _, g4, g5⟩ := add_run (w := noSnaps w) hH ⟨hL.names, hL.sup, hL.sorted, hL.there, hL.ledger⟩
    hres hf hinj hx (reachable_hush h)
  exact ⟨g1, ⟨g2.names, g2.sup, g2.sorted, g2.there, g2.ledger⟩, snaps_same h, g4, g5⟩

/-! ## Backups -/

/-- What such a backup may take for granted: as `BackupOk`, but that snapshots may need what is gone, the parent
among them. Files that look unmodified since the parent have its chunks, all of which can be found, as bytes. -/
structure Over (C : Codec Id) (cut : Bytes → Nat) (ids : Ids Id) (w : World Id) (src : Source Id)
    (snaps : List (Snap Id)) (a : BackupArgs) : Prop where
  chunker : Chunk.Contract cut
  orderly : Orderly C ids w.repo
  leftover : Leftover C ids w
  opens : Opens w.repo src
  fits : Fits (keep a.filter a.pathOf a.fs)
  few : (keep a.filter a.pathOf a.fs).names.length < 2 ^ 64
  sorted : SubsSorted a.fs
  reuse : ∀ F, parentForest C src (parentSnapshot a.paths snaps) = .ok F →
    Reuse (FileHolds C w.repo) F (((parentSnapshot a.paths snaps).map (·.tree)).bind (fun id => F.get? id))
      (keep a.filter a.pathOf a.fs)

/-- The trees of the parent, as loaded. -/
theorem forest_trees (hS : Sound C w.repo) (ho : Opens w.repo src) {p : Option (Snapshot Id)} {F : Forest Id}
    (hF : parentForest C src p = .ok F) : ∀ id t, F.get? id = some t → TreeAt C w.repo id t := by
  cases p with
  | none => cases hF; intro id t h; cases h
  | some p =>
    unfold parentForest at hF
    simp only at hF
    cases hf : forestFromRoot C src p.tree (newTreeCache C) with
    | error e => rw [hf] at hF; cases hF
    | ok r =>
      rw [hf] at hF
      obtain ⟨f, cache⟩ := r
      have hF : f = F := by cases hF; rfl
      subst hF
      exact fun id t ht => ((C23.forest_exact hS ho p.tree (newTreeCache C) f cache newTreeCache_ok hf id t).mp ht).2

theorem reuse_bounded {P : List Id → Bytes → Prop} {F : Forest Id} (hF : ∀ id t, F.get? id = some t → Serde.OkTree t)
    (d : Dir Bytes) : ∀ prev : Option (Tree Id), (∀ t, prev = some t → Serde.OkTree t) → Reuse P F prev d →
      Reuse (fun cs x => P cs x ∧ cs.length < 2 ^ 64) F prev d := by
  induction d with
  | nil => exact fun _ _ _ => trivial
  | leaf n md l r ih =>
    rintro prev hp ⟨h1, h2⟩
    refine ⟨fun x cs m hx hn hu => ⟨h1 x cs m hx hn hu, ?_⟩, ih prev hp h2⟩
    cases prev with
    | none => cases hn
    | some t =>
      have := (hp t rfl).contents (n, ⟨.file cs, m⟩) (BMap.mem_of_get? hn)
      exact this
  | dir n md s r ih1 ih2 =>
    rintro prev hp ⟨h1, h2⟩
    refine ⟨ih1 _ ?_ h1, ih2 prev hp h2⟩
    intro t ht
    unfold prevSub at ht
    split at ht
    · exact hF _ _ ht
    · cases ht

theorem Over.reused (h : Over C cut ids w src snaps a) {F : Forest Id}
    (hF : parentForest C src (parentSnapshot a.paths snaps) = .ok F) :
    Reuse (fun cs x => FileHolds C w.repo cs x ∧ cs.length < 2 ^ 64) F
      (((parentSnapshot a.paths snaps).map (·.tree)).bind (fun id => F.get? id)) (keep a.filter a.pathOf a.fs) := by
  have ht := forest_trees (orderly_sound h.orderly) h.opens hF
  refine reuse_bounded (fun id t h => (ht id t h).1) _ _ ?_ (h.reuse F hF)
  intro t h1
  cases hp : (parentSnapshot a.paths snaps).map (·.tree) with
  | none => rw [hp] at h1; cases h1
  | some i => rw [hp] at h1; exact (ht i t h1).1

theorem Over.made (h : Over C cut ids w src snaps a) {F : Forest Id} {root : Id}
    {L : List (Blob Id)} (hF : parentForest C src (parentSnapshot a.paths snaps) = .ok F)
    (hb : backupBlobs C cut a.filter F a.pathOf ((parentSnapshot a.paths snaps).map (·.tree)) a.fs =
      .ok (root, L)) : ∀ b ∈ L, WellMade C b := by
  intro b hm
  have := backup_blobs h.chunker h.fits h.few h.sorted ((h.reused hF).mono (fun _ _ h => ⟨trivial, h.2⟩)) hb b hm
  refine ⟨this.ne h.chunker, this.hash h.chunker, fun hk => ?_⟩
  obtain ⟨t, h1, _, h2⟩ := this.tree_of h.chunker hk
  exact ⟨t, h1, h2⟩

theorem Over.root (h : Over C cut ids w src snaps a) {F : Forest Id} {root : Id}
    {L : List (Blob Id)} (hF : parentForest C src (parentSnapshot a.paths snaps) = .ok F)
    (hb : backupBlobs C cut a.filter F a.pathOf ((parentSnapshot a.paths snaps).map (·.tree)) a.fs =
      .ok (root, L)) {R : Repo Id} (hold : ∀ b, Has C w.repo b → Has C R b)
    (hall : ∀ b ∈ L, Has C R b) : Holds C R root (arrange (keep a.filter a.pathOf a.fs)) := by
  obtain ⟨t, h1, rfl, h3, h4⟩ := backup_rel (PF := FileHolds C R) (PT := TreeAt C R) h.chunker
    (by
      intro x hx
      have := file_holds (C := C) (R := R) (Chunk.chunkFile C.hash cut x) (fun b hb =>
        ⟨hall b (hx b hb), (C10.chunk_bounds _ cut h.chunker x b hb).2.2.2⟩)
      rwa [C10.chunks_concat _ cut h.chunker] at this)
    (fun t ht hm => ⟨ht, rfl, hm.imp (fun e => e) (hall _)⟩)
    h.fits h.few h.sorted
    ((h.reused hF).mono (fun _ _ h => ⟨has_mono_file hold h.1, h.2⟩)) hb
  exact ⟨t, ⟨h1, rfl, h3.imp (fun e => e) (hall _)⟩, h4⟩

/-- What such a backup does up to the operations after the join. -/
theorem Over.run (h : Over C cut ids w src snaps a) (hN : NoClash C cut ids cores w src snaps a plan)
    (hp : backupPlan C cut w src snaps a = .ok plan) (hlive : a.dryRun = false)
    {s : State Id} (hs : Reachable (liveCfg ids cores plan.start) w plan.main s) :
    Orderly C ids s.world.repo ∧ Leftover C ids s.world ∧ s.world.repo.snapshots = w.repo.snapshots ∧
    (∀ b, Has C w.repo b → Has C s.world.repo b) ∧
    (s.joined = true → (∀ b ∈ offered C cut src snaps a, Has C s.world.repo b) ∧
      ∃ root sent, plan.post = backupPost C a snaps plan.start sent root ∧
        Holds C s.world.repo root (arrange (keep a.filter a.pathOf a.fs))) := by
  obtain ⟨F, known, here, root, L, hF, hk, hr, hb, hoff, hm, hpost⟩ := plan_ok hp
  have hu := hN.blobs
  rw [hoff] at hu
  obtain ⟨hfresh, hall⟩ := offer_fresh h.leftover
    (packed_iff (orderly_sound h.orderly) h.leftover h.opens hk hr) (h.made hF hb) hu
  have hmain : plan.main = mainOf here
      (L.foldl offer ⟨BMap.keys known ++ listedIds plan.start, []⟩).sent := by
    rw [hm, hlive]; rfl
  have hpk := hN.packs
  have hix := hN.indexes
  rw [hmain] at hpk hs
  rw [hmain, sends_mainOf] at hix
  obtain ⟨g1, g2, g3, g4, g5⟩ := orderly_run h.orderly h.leftover hr hfresh hpk hix hs
  have hL : s.joined = true → ∀ b ∈ L, Has C s.world.repo b := by
    intro hj b hbL
    refine g5 hj b ?_
    rcases hall b hbL with ⟨p, bs, h1, h2⟩ | h1
    · exact .inr ⟨p, bs, h1, h2⟩
    · exact .inl h1
  refine ⟨g1, g2, g3, g4, fun hj => ⟨by rw [hoff]; exact hL hj, root, _, hpost, ?_⟩⟩
  exact h.root hF hb g4 (hL hj)

end Backpak.Mend
