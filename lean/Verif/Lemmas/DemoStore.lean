import Verif.Lemmas.DemoPrune
import Verif.Lemmas.Written
import Verif.Spec.Toy

/-!
# Files for the small repositories
-/

namespace Backpak.Demo

open Spec

/-- The files of a repository, with the toy compressor. -/
def store (R : Repo ObjectId) : Stored where
  packs := R.packs.map fun e => (e.1, Pack.file (Toy.frame (Pack.contentOf e.2))
    (Toy.frame (Serde.encManifest (Pack.manifestOf e.2))))
  indexes := R.indexes.map fun e => (e.1, ascii "MKBAKIDX1" ++ Toy.frame (Serde.encIndex e.2))
  snapshots := R.snapshots.map fun e => (e.1, Serde.snapshotFile e.2)

/-- What has to fit for the files to be read back. -/
def fits (R : Repo ObjectId) : Bool :=
  R.packs.all (fun e => decide ((Toy.frame (Serde.encManifest (Pack.manifestOf e.2))).length < 2 ^ 32 ∧
    e.2.length < 2 ^ 64) && e.2.all (fun b => decide (b.data.length < 2 ^ 32))) &&
  R.indexes.all (fun e => decide (hash (Serde.encIndex e.2) = e.1 ∧ e.2.supersedes.Pairwise (· < ·) ∧
    e.2.supersedes.length < 2 ^ 64 ∧ (BMap.keys e.2.packs).Pairwise (· < ·) ∧ e.2.packs.length < 2 ^ 64) &&
    e.2.packs.all (fun p => decide (p.2.length < 2 ^ 64) && p.2.all (fun x => decide (x.length < 2 ^ 32)))) &&
  R.snapshots.all (fun e => decide (hash (Serde.encSnapshot e.2) = e.1 ∧ (-2 ^ 64 ≤ e.2.time ∧ e.2.time < 2 ^ 64) ∧
    e.2.tz.length < 2 ^ 64 ∧ e.2.author.length < 2 ^ 64 ∧ e.2.tags = [] ∧ e.2.paths.Pairwise (· < ·) ∧
    e.2.paths.length < 2 ^ 64) && e.2.paths.all (fun p => decide ((Serde.pathText p).length < 2 ^ 64 ∧ p ≠ []) &&
      p.all (fun n => decide (0x2f ∉ n))))

theorem written_store {R : Repo ObjectId} (h : fits R = true) : Written Toy.zstd hash R (store R) := by
  simp only [fits, Bool.and_eq_true, List.all_eq_true, decide_eq_true_eq] at h
  obtain ⟨⟨h1, h2⟩, h3⟩ := h
  refine ⟨⟨_, .refl _, ?_⟩, ⟨_, .refl _, ?_⟩, ⟨_, .refl _, ?_⟩⟩
  · unfold store
    rw [List.forall₂_map_right_iff, List.forall₂_same]
    intro e he
    obtain ⟨⟨a, b⟩, c⟩ := h1 e he
    exact ⟨rfl, ⟨_, _, rfl, rfl, a, rfl⟩, b, c⟩
  · unfold store
    rw [List.forall₂_map_right_iff, List.forall₂_same]
    intro e he
    obtain ⟨⟨a, b, c, d, f⟩, g⟩ := h2 e he
    exact ⟨rfl, a, ⟨b, c, d, f, fun p hp => g p hp⟩, _, rfl, rfl⟩
  · unfold store
    rw [List.forall₂_map_right_iff, List.forall₂_same]
    intro e he
    obtain ⟨⟨a, b, c, d, f, g, i⟩, k⟩ := h3 e he
    refine ⟨rfl, a, ⟨b, c, d, by rw [f]; exact List.Pairwise.nil, by rw [f]; exact Nat.two_pow_pos _,
      by rw [f]; simp, g, i, fun p hp => ⟨⟨(k p hp).1.2, (k p hp).2⟩, (k p hp).1.1⟩⟩, rfl⟩

def realIds : Ids ObjectId := Ids.real hash

/-- Two snapshots that share a pack of chunks and one of trees, and a pack that nothing uses. -/
def filesAB : Repo ObjectId := repoOf realIds [[chunkA, chunkB], [treeA, treeB], [junk]] [snapA, snapB]

theorem healthy_filesAB : Healthy codec realIds filesAB := Check.healthy_sound (k := 2) (by decide +kernel)

theorem fits_filesAB : fits filesAB = true := by decide +kernel

theorem written_filesAB : Written Toy.zstd hash filesAB (store filesAB) := written_store fits_filesAB

/-- A directory, and beside it a file with exactly the bytes the directory is encoded as: its one chunk
has the ID of the directory's tree. -/
def treeTwice : Blob ObjectId :=
  treeBlob [([97], ⟨.dir treeA.id, dirMd⟩), ([98], ⟨.file [treeA.id], fileMd treeA.data.length 5⟩)]

/-- What a backup of them leaves (`C20.chunk_like_tree`): the ID is stored once, as a tree. -/
def filesTwice : Repo ObjectId := repoOf realIds [[chunkA], [treeA, treeTwice]] [snapOf treeTwice 1]

theorem fits_filesTwice : fits filesTwice = true := by decide +kernel

end Backpak.Demo
