import Verif.Model.Check
import Verif.Spec.Repo

/-!
# A repository and its files

`Repo` is what a repository holds; `Stored` is its files. These are the files the program writes.
-/

namespace Backpak

/-- Objects are named by the hash of their encoding (`src/pack.rs:266`, `src/index.rs:173-190`,
`src/snapshot.rs:132-150`). -/
def Ids.real (H : Bytes → ObjectId) : Ids ObjectId :=
  ⟨fun m => H (Serde.encManifest m), fun x => H (Serde.encIndex x), fun s => H (Serde.encSnapshot s)⟩

namespace Spec

/-- `f` is a file for pack `e`. -/
def WrittenPack (Z : Zstd) (e : ObjectId × List (Blob ObjectId)) (f : ObjectId × Bytes) : Prop :=
  f.1 = e.1 ∧ Pack.WritesFile Z e.2 f.2 ∧ e.2.length < 2 ^ 64 ∧ ∀ b ∈ e.2, b.data.length < 2 ^ 32

/-- `f` is a file for index `e`. -/
def WrittenIndex (Z : Zstd) (H : Bytes → ObjectId) (e : ObjectId × Index ObjectId) (f : ObjectId × Bytes) : Prop :=
  f.1 = e.1 ∧ H (Serde.encIndex e.2) = e.1 ∧ Serde.OkIndex e.2 ∧
    ∃ z, Z.Frame z (Serde.encIndex e.2) ∧ f.2 = ascii "MKBAKIDX1" ++ z

/-- `f` is the file of snapshot `e`. -/
def WrittenSnapshot (H : Bytes → ObjectId) (e : ObjectId × Snapshot ObjectId) (f : ObjectId × Bytes) : Prop :=
  f.1 = e.1 ∧ H (Serde.encSnapshot e.2) = e.1 ∧ Serde.OkSnapshot e.2 ∧ f.2 = Serde.snapshotFile e.2

/-- The files `S`, listed in any order, are the files of repository `R`. -/
structure Written (Z : Zstd) (H : Bytes → ObjectId) (R : Repo ObjectId) (S : Stored) : Prop where
  packs : ∃ l, l.Perm S.packs ∧ List.Forall₂ (WrittenPack Z) R.packs l
  indexes : ∃ l, l.Perm S.indexes ∧ List.Forall₂ (WrittenIndex Z H) R.indexes l
  snapshots : ∃ l, l.Perm S.snapshots ∧ List.Forall₂ (WrittenSnapshot H) R.snapshots l

end Spec

end Backpak
