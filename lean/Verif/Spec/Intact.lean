import Verif.Model.Check
import Verif.Spec.Live

/-!
# When the files of a repository hold a snapshot

Over bytes: which pieces of which files have to be there. The files can be anything.
-/

namespace Backpak.Spec

variable (Z : Zstd) (H : Bytes → ObjectId)

/-- The index files, decoded: each holds the magic and then, compressed, a record that hashes to the
file's name. -/
def IndexFiles (R : Stored) (files : List (ObjectId × Index ObjectId)) : Prop :=
  List.Forall₂ (fun (e : ObjectId × Bytes) x => x.1 = e.1 ∧ ∃ rest used,
    e.2 = ascii "MKBAKIDX1" ++ rest ∧ used <+: (Z.stream rest).data ∧
    Serde.decIndex used = some (x.2, []) ∧ H used = e.1) R.indexes files

/-- A live index lists blob `id` in pack `p`, and a file of that name is there. -/
def Placed (R : Stored) (id : ObjectId) : Prop :=
  ∃ files p m f, IndexFiles Z H R files ∧ Listed files p m ∧ (∃ e ∈ m, e.id = id) ∧ (p, f) ∈ R.packs

/-- A live index lists blob `id` in a pack that is there and, decompressed, contains bytes `x` that
hash to the ID. -/
def Found (R : Stored) (id : ObjectId) (x : Bytes) : Prop :=
  H x = id ∧ ∃ files p m f rest, IndexFiles Z H R files ∧ Listed files p m ∧ (∃ e ∈ m, e.id = id) ∧
    (p, f) ∈ R.packs ∧ f = ascii "MKBAKPAK1" ++ rest ∧ x <:+: (Z.stream rest).data

/-- The tree of ID `id` is there. The empty tree need not be stored. -/
def TreeFound (R : Stored) (id : ObjectId) (t : Tree ObjectId) : Prop :=
  (id = H (Serde.encTree []) ∧ t = []) ∨ ∃ x, Found Z H R id x ∧ Serde.decTree x = some (t, [])

/-- The tree of ID `id`, all trees below it, and all chunks of their files are there; `P` says what it
is for a chunk to be. -/
inductive Whole (P : ObjectId → Prop) (R : Stored) : ObjectId → Prop
  | mk {id t} : TreeFound Z H R id t →
      (∀ n sub md, (n, ⟨.dir sub, md⟩) ∈ t → Whole P R sub) →
      (∀ n cs md, (n, ⟨.file cs, md⟩) ∈ t → ∀ c ∈ cs, P c) → Whole P R id

/-- A snapshot file holds, after its magic and version, a record that hashes to its name. -/
def SnapshotIs (O : Serde.OldTime) (id : ObjectId) (f : Bytes) (s : Snapshot ObjectId) : Prop :=
  ∃ used rest, (f = ascii "MKBAKSNP2" ++ used ++ rest ∧ Serde.decSnapshot used = some (s, []) ∨
    f = ascii "MKBAKSNP1" ++ used ++ rest ∧ Serde.decSnapshotV1 O used = some (s, [])) ∧ H used = id

end Backpak.Spec
