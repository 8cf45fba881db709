import Verif.Model.Types

/-!
# Which packs a set of index files lists

Written without the model's index functions: only membership.
-/

namespace Backpak.Spec

variable {Id : Type}

/-- Some index file names `i` as superseded. -/
def Superseded (files : List (Id × Index Id)) (i : Id) : Prop :=
  ∃ j x, (j, x) ∈ files ∧ i ∈ x.supersedes

/-- `x` is stored under `i` and no index file supersedes `i`. -/
def LiveIndex (files : List (Id × Index Id)) (i : Id) (x : Index Id) : Prop :=
  (i, x) ∈ files ∧ ¬ Superseded files i

/-- Some live index lists pack `p` with manifest `m`. -/
def Listed (files : List (Id × Index Id)) (p : Id) (m : Manifest Id) : Prop :=
  ∃ i x, LiveIndex files i x ∧ (p, m) ∈ x.packs

/-- The blob IDs listed by a list of packs, in order, with repeats. -/
def blobsListed (packs : List (Id × Manifest Id)) : List Id :=
  packs.flatMap (fun e => e.2.map Entry.id)

end Backpak.Spec
