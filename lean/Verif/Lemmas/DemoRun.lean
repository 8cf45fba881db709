import Verif.Lemmas.Backup
import Verif.Spec.Demo
import Mathlib.Data.List.Infix

/-!
# A small backup for examples
-/

namespace Backpak.Demo

open Spec Pipeline

/-- IDs by the toy hash. -/
def ids : Ids ObjectId where
  packId m := hash (m.flatMap (fun e => e.id.digest))
  indexId x := hash (1 :: x.packs.flatMap (fun e => e.1.digest))
  snapId s := hash (2 :: s.tree.digest)

/-- An empty repository and working directory. -/
def world0 : World ObjectId := ⟨⟨[], [], []⟩, ⟨none, [], []⟩⟩

/-- It, opened. -/
def src0 : Source ObjectId := sourceOf world0.repo Index.empty []

/-- Back up what is in `dir0` but for its link. -/
def args0 : BackupArgs where
  paths := dir0.names.map pathOf
  fs := dir0
  pathOf := pathOf
  filter := filter
  allowEmpty := false
  dryRun := false
  author := [1]
  tags := []
  now := 1000
  tz := [85]

theorem healthy_empty {Id : Type} [LinearOrder Id] (C : Codec Id) (ids : Ids Id) :
    Healthy C ids ⟨[], [], []⟩ := by
  have : ∀ p m, ¬ Listed ([] : List (Id × Index Id)) p m := by
    rintro p m ⟨i, x, ⟨h, _⟩, _⟩
    cases h
  refine ⟨BMap.sorted_nil, BMap.sorted_nil, BMap.sorted_nil, by simp, by simp, by simp, ?_, ?_, ?_, ?_, ?_,
    ?_, ?_, by simp⟩
  · exact fun p m h => absurd h (this p m)
  · exact fun p m h => absurd h (this p m)
  · exact fun p m _ _ _ _ h => absurd h (this p m)
  · exact fun p m h => absurd h (this p m)
  · exact fun p bs _ h => absurd h (this p _)
  · exact fun p bs _ h => absurd h (this p _)
  · exact fun p bs _ h => absurd h (this p _)

theorem leftover_clean {Id : Type} [LinearOrder Id] {C : Codec Id} {ids : Ids Id} {R : Repo Id}
    (h : Healthy C ids R) : Leftover C ids ⟨R, ⟨none, [], []⟩⟩ := by
  refine ⟨by simp, by simp, by simp, by simp, ?_⟩
  refine h.sound.ledger.mono ?_
  rintro p bs (h | ⟨x, h, _⟩)
  · exact h
  · cases h

theorem opens0 : Opens world0.repo src0 :=
  ⟨⟨[], .refl _, rfl⟩, rfl, by simp [world0], fun p _ => ⟨_, rfl⟩⟩

theorem keep0_fits : Fits (keep args0.filter args0.pathOf args0.fs) :=
  ⟨by decide, okFileMd _ _ (by decide) (by decide), by simp [LeafFits],
   by decide, okFileMd _ _ (by decide) (by decide), by simp [LeafFits],
   by decide, okDirMd, by decide, ⟨by decide, okFileMd _ _ (by decide) (by decide), by simp [LeafFits],
    by decide, okDirMd, by decide, trivial, trivial⟩, trivial⟩

theorem backupOk0 : BackupOk codec cut ids world0 src0 [] args0 where
  chunker := cut_contract
  healthy := healthy_empty codec ids
  leftover := leftover_clean (healthy_empty codec ids)
  opens := opens0
  loaded := by simp
  fits := keep0_fits
  few := by decide
  sorted := ⟨⟨by decide, by decide, trivial, trivial⟩, trivial⟩
  faithful := by intro p d0 h; cases h

/-- What a plan is, if there is one. -/
def planOf (r : Res (Plan ObjectId)) : Plan ObjectId :=
  match r with
  | .ok p => p
  | .error _ => ⟨Index.empty, [], .ok []⟩

theorem planOf_eq {r : Res (Plan ObjectId)} (h : isOk r = true) : r = .ok (planOf r) := by
  cases r with
  | ok p => rfl
  | error e => cases h

/-- Its plan. -/
def plan0 : Plan ObjectId := planOf (backupPlan codec cut world0 src0 [] args0)

theorem plan0_eq : backupPlan codec cut world0 src0 [] args0 = .ok plan0 :=
  planOf_eq (by decide +kernel)

/-- All runs of consecutive elements. -/
def infixes {A : Type} (l : List A) : List (List A) := l.tails.flatMap List.inits

theorem mem_infixes {A : Type} {l m : List A} (h : m <:+: l) : m ∈ infixes l := by
  obtain ⟨a, b, rfl⟩ := h
  refine List.mem_flatMap.mpr ⟨m ++ b, ?_, ?_⟩
  · rw [List.mem_tails]; exact ⟨a, by simp⟩
  · rw [List.mem_inits]; exact ⟨b, rfl⟩

/-- Every pack a run could form. -/
def packsOf (main : List (Op ObjectId)) : List (Pack ObjectId) :=
  infixes (ofKind .chunk (sends main)) ++ infixes (ofKind .tree (sends main))

theorem formed_mem {main : List (Op ObjectId)} {cur : Pack ObjectId} (h : FormedBy main cur) :
    cur ∈ packsOf main := by
  obtain ⟨_, k, h⟩ := h
  cases k
  · exact List.mem_append_left _ (mem_infixes h)
  · exact List.mem_append_right _ (mem_infixes h)

theorem noClash0 : NoClash codec cut ids 4 world0 src0 [] args0 plan0 where
  blobs := by
    have hs : ∀ b, ¬ Stored world0 b := by
      rintro b ⟨p, bs, (⟨⟨i, x, ⟨h, _⟩, _⟩, _⟩ | ⟨x, h, _⟩), _⟩ <;> cases h
    have key : ∀ b ∈ emptyBlob codec :: offered codec cut src0 [] args0,
        ∀ b' ∈ emptyBlob codec :: offered codec cut src0 [] args0,
        codec.hash b.data = codec.hash b'.data → b.data = b'.data ∧ b.kind = b'.kind := by
      decide +kernel
    have hm : ∀ b, (Stored world0 b ∨ b ∈ offered codec cut src0 [] args0) →
        b ∈ emptyBlob codec :: offered codec cut src0 [] args0 := by
      rintro b (h | h)
      · exact absurd h (hs b)
      · exact List.mem_cons_of_mem _ h
    exact ⟨fun b b' h h' he => (key b (hm b h) b' (h'.elim (hm b') (fun e => e ▸ List.mem_cons_self)) he).1,
      fun b b' h h' he => (key b (hm b h) b' (hm b' h') (by rw [he])).2⟩
  packs := by
    have key : ∀ a ∈ packsOf plan0.main, ∀ b ∈ packsOf plan0.main,
        ids.packId (Pack.manifestOf a) = ids.packId (Pack.manifestOf b) → a = b := by
      decide +kernel
    have hm : ∀ a, Involved world0 plan0.main a → a ∈ packsOf plan0.main := by
      rintro a (⟨p, h⟩ | ⟨p, h⟩ | h)
      · cases h
      · cases h
      · exact formed_mem h
    exact fun a b ha hb => key a (hm a ha) b (hm b hb)
  indexes := by
    intro x _
    exact ⟨(by rintro ⟨j, y, h, _⟩; cases h), (by intro y h; cases h), by
      show _ ∉ plan0.start.supersedes
      rw [show plan0.start.supersedes = [] by decide +kernel]; simp⟩

/-- The snapshot it makes. -/
def snap0 : Snapshot ObjectId :=
  match plan0.post with
  | .ok [.putSnap s] => s
  | _ => ⟨0, [], [], [], [], codec.emptyId⟩

theorem post0 : plan0.post = .ok [.putSnap snap0] := by
  have h : (match plan0.post with | .ok [.putSnap _] => true | _ => false) = true := by decide +kernel
  unfold snap0
  split at h
  · rename_i s hs
    rw [hs]
  · cases h

end Backpak.Demo
