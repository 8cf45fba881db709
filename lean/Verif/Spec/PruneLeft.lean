import Verif.Spec.Clash

/-!
# What interrupted prunes may leave
-/

namespace Backpak

open Spec

variable {Id : Type} [LinearOrder Id]

/-- A blob a snapshot needs. -/
def Needed (C : Codec Id) (R : Repo Id) (i : Id) : Prop :=
  ∃ j s, (j, s) ∈ R.snapshots ∧ ∃ u t, Reaches (TreeAt C R) s.tree u ∧ TreeAt C R u t ∧
    (i = u ∨ i ∈ chunksInTree t)

/-- An index that supersedes those there are, and no others. -/
def Replaces (w : World Id) (x : Index Id) : Prop :=
  x.supersedes ≠ [] ∧ x.supersedes = BMap.keys w.repo.indexes

/-- What interrupted backups leave, and interrupted prunes while the snapshots stay the same: packs
under the IDs of their contents; an index that lists packs that are here or in the repository; and,
should the index supersede those there are, no blob in two of its packs, and none but blobs that
some snapshot needs and that can be found without it. -/
structure PruneLeft (C : Codec Id) (ids : Ids Id) (w : World Id) : Prop where
  names : ∀ p bs, (p, bs) ∈ w.cwd.packs → p = ids.packId (Pack.manifestOf bs)
  there : ∀ x p m, w.cwd.wip = some x → (p, m) ∈ x.packs →
    ∃ bs, ((p, bs) ∈ w.cwd.packs ∨ (p, bs) ∈ w.repo.packs) ∧ m = Pack.manifestOf bs
  sorted : ∀ x, w.cwd.wip = some x → Replaces w x → BMap.Sorted x.packs
  ledger : ∀ x, w.cwd.wip = some x → Replaces w x → Ledger C (WipPack w)
  needed : ∀ x, w.cwd.wip = some x → Replaces w x → ∀ p bs b, WipPack w p bs → b ∈ bs →
    Needed C w.repo b.id ∧ (b = emptyBlob C ∨ Has C w.repo b)

end Backpak
