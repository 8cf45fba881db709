import Verif.Lemmas.Walk
import Verif.Lemmas.Prune
import Verif.Lemmas.DemoRun
import Verif.Spec.Demo

/-!
# C19 - Backup stores each blob once and only if it is new

`s.packed` is what the repository's index and the resumed index already list.
-/

namespace Backpak.C19

open Spec Pipeline

variable {Id : Type} [LinearOrder Id] {C : Codec Id} {cut : Bytes → Nat}

/-- Whatever the tree, the parent and the filter: the blobs sent have distinct IDs, and none was
known before. -/
theorem sends_new_once (filter : Path → Bool) (F : Forest Id) (pathOf : Name → Path)
    (prevRoot : Option Id) (d : Dir Bytes) (s s' : Sends Id) (root : Id)
    (h : backupTree C cut filter F pathOf prevRoot d s = .ok (root, s')) :
    ∃ new, s'.sent = s.sent ++ new ∧ (new.map Blob.id).Nodup ∧ (∀ b ∈ new, b.id ∉ s.packed) ∧
      ∀ i, i ∈ s'.packed ↔ i ∈ s.packed ∨ i ∈ new.map Blob.id := by
  rw [backupTree_eq] at h
  cases hb : backupBlobs C cut filter F pathOf prevRoot d with
  | error e => rw [hb] at h; cases h
  | ok r =>
    rw [hb] at h
    cases h
    obtain ⟨new, h1, _, h3, h4, h5, _⟩ := offer_all r.2 s
    exact ⟨new, h1, h3, h4, h5⟩

/-- Nothing is missing: the root stands for the kept entries, all the way down, where every chunk
and every tree but the empty one was known before or is sent. The parent's files are only relied
on where they look unmodified, and their chunks must be known. -/
theorem nothing_missing (hc : Chunk.Contract cut) (filter : Path → Bool) (F : Forest Id)
    (pathOf : Name → Path) (prevRoot : Option Id) (d : Dir Bytes) (packed : List Id) (s' : Sends Id)
    (root : Id) (hfit : Fits (keep filter pathOf d))
    (hlen : (keep filter pathOf d).names.length < 2 ^ 64) (hsub : SubsSorted d)
    (hparent : Reuse (fun cs _ => (∀ i ∈ cs, i ∈ packed) ∧ cs.length < 2 ^ 64) F
      (prevRoot.bind (fun id => F.get? id)) (keep filter pathOf d))
    (h : backupTree C cut filter F pathOf prevRoot d ⟨packed, []⟩ = .ok (root, s')) :
    ∃ t, C.hash (C.encTree t) = root ∧ (t = [] ∨ root ∈ packed ∨ root ∈ s'.sent.map Blob.id) ∧
      DirRel (fun cs _ => ∀ i ∈ cs, i ∈ packed ∨ i ∈ s'.sent.map Blob.id)
        (fun id t => C.hash (C.encTree t) = id ∧
          (t = [] ∨ id ∈ packed ∨ id ∈ s'.sent.map Blob.id))
        t (arrange (keep filter pathOf d)) := by
  rw [backupTree_eq] at h
  cases hb : backupBlobs C cut filter F pathOf prevRoot d with
  | error e => rw [hb] at h; cases h
  | ok r =>
    rw [hb] at h
    cases h
    obtain ⟨new, h1, _, _, _, _, h6⟩ := offer_all r.2 ⟨packed, []⟩
    simp only [List.nil_append] at h1 h6
    simp only [h1]
    obtain ⟨t, _, hr, ht, hd⟩ := backup_rel (C := C) (F := F) (root := r.1) (L := r.2)
      (PF := fun cs _ => ∀ i ∈ cs, i ∈ packed ∨ i ∈ new.map Blob.id)
      (PT := fun id t => C.hash (C.encTree t) = id ∧ (t = [] ∨ id ∈ packed ∨ id ∈ new.map Blob.id))
      hc (by
        intro x hx i hi
        obtain ⟨b, hb, rfl⟩ := List.mem_map.mp hi
        exact h6 b (hx b hb)) (by
        intro t _ ht
        exact ⟨rfl, ht.imp id (fun ht => h6 _ ht)⟩) hfit hlen hsub (by
        exact hparent.mono (fun cs _ h => ⟨fun i hi => .inl (h.1 i hi), h.2⟩)) hb
    exact ⟨t, hr.symm, ht.imp id (fun ht => by rw [hr]; exact h6 _ ht), hd⟩

/-- So for the whole command: the blobs it sends have distinct IDs, and none is listed by a live
index of the repository, nor by the index it resumes from. -/
theorem command_sends_new_once {ids : Ids Id} (w : World Id) (src : Source Id) (snaps : List (Snap Id))
    (a : BackupArgs) (plan : Plan Id) (hh : Healthy C ids w.repo) (ho : Opens w.repo src)
    (h : backupPlan C cut w src snaps a = .ok plan) :
    ((sends plan.main).map Blob.id).Nodup ∧
    (∀ b ∈ sends plan.main, ∀ p m, Listed w.repo.indexes p m → b.id ∉ m.map Entry.id) ∧
    ∀ b ∈ sends plan.main, ∀ p m, (p, m) ∈ plan.start.packs → b.id ∉ m.map Entry.id := by
  obtain ⟨F, known, here, root, L, _, hk, _, _, _, hm, _⟩ := plan_ok h
  obtain ⟨new, h1, _, h3, h4, _⟩ := offer_all L ⟨BMap.keys known ++ listedIds plan.start, []⟩
  have hs : sends plan.main = new := by
    rw [hm, h1, List.nil_append]
    split
    · exact sends_mainOf [] new
    · exact sends_mainOf here new
  rw [hs]
  refine ⟨h3, fun b hb p m hl hin => h4 b hb ?_, fun b hb p m hl hin => h4 b hb ?_⟩
  · refine List.mem_append_left _ ((blobIds_iff hk b.id).mpr ?_)
    exact List.mem_flatMap.mpr ⟨(p, m), (opens_mem hh.sound ho p m).mpr hl, hin⟩
  · exact List.mem_append_right _ (List.mem_flatMap.mpr ⟨(p, m), hl, hin⟩)

/-- `dir0` has two files with the same bytes: four blobs are sent, and a second backup of the
same tree sends none. -/
example : ∃ root s', backupTree Demo.codec Demo.cut Demo.filter [] Demo.pathOf none Demo.dir0 ⟨[], []⟩ =
      .ok (root, s') ∧ s'.sent.length = 4 ∧
    ∃ s'', backupTree Demo.codec Demo.cut Demo.filter [] Demo.pathOf none Demo.dir0 ⟨s'.packed, []⟩ =
      .ok (root, s'') ∧ s''.sent = [] := by
  have h : (match backupTree Demo.codec Demo.cut Demo.filter [] Demo.pathOf none Demo.dir0 ⟨[], []⟩ with
      | .ok (root, s') => decide (s'.sent.length = 4 ∧
          backupTree Demo.codec Demo.cut Demo.filter [] Demo.pathOf none Demo.dir0 ⟨s'.packed, []⟩ =
            .ok (root, ⟨s'.packed, []⟩))
      | .error _ => false) = true := by decide +kernel
  split at h
  · rename_i root s' hs
    obtain ⟨h1, h2⟩ := of_decide_eq_true h
    exact ⟨root, s', hs, h1, _, h2, rfl⟩
  · cases h

example : Healthy Demo.codec Demo.ids Demo.world0.repo ∧ Opens Demo.world0.repo Demo.src0 ∧
    backupPlan Demo.codec Demo.cut Demo.world0 Demo.src0 [] Demo.args0 = .ok Demo.plan0 :=
  ⟨Demo.backupOk0.healthy, Demo.backupOk0.opens, Demo.plan0_eq⟩

example : Fits (keep Demo.filter Demo.pathOf Demo.dir0) ∧
    (keep Demo.filter Demo.pathOf Demo.dir0).names.length < 2 ^ 64 ∧ SubsSorted Demo.dir0 ∧
    Reuse (fun cs _ => (∀ i ∈ cs, i ∈ ([] : List ObjectId)) ∧ cs.length < 2 ^ 64) []
      ((none : Option ObjectId).bind (fun id => BMap.get? [] id))
      (keep Demo.filter Demo.pathOf Demo.dir0) :=
  ⟨fits_keep _ Demo.dir0_fits _, by decide, Sorted.subs Demo.dir0_sorted, reuse_none _ _ _⟩

end Backpak.C19
