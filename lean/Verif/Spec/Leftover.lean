import Verif.Spec.Repo

/-!
# What a working directory may hold

A working directory left by an interrupted backup, in terms of what is on disk.
-/

namespace Backpak

open Spec

variable {Id : Type}

/-- A live index lists pack `p`, and it is there with blobs `bs`, as listed. -/
def LivePack (R : Repo Id) (p : Id) (bs : Pack Id) : Prop :=
  Listed R.indexes p (Pack.manifestOf bs) ∧ (p, bs) ∈ R.packs

/-- What holds of the live packs of a repository in good order. -/
structure Ledger (C : Codec Id) (L : Id → Pack Id → Prop) : Prop where
  one : ∀ p bs bs', L p bs → L p bs' → bs = bs'
  distinct : ∀ p bs, L p bs → (bs.map Blob.id).Nodup
  once : ∀ p bs p' bs' b b', L p bs → L p' bs' → b ∈ bs → b' ∈ bs' → b.id = b'.id → p = p'
  one_kind : ∀ p bs, L p bs → ∃ k, ∀ b ∈ bs, b.kind = k
  hashes : ∀ p bs b, L p bs → b ∈ bs → C.hash b.data = b.id
  trees : ∀ p bs b, L p bs → b ∈ bs → b.kind = .tree →
    ∃ t, Serde.OkTree t ∧ b.data = C.encTree t ∧ (b.id = C.emptyId → t = [])
  full : ∀ p bs b, L p bs → b ∈ bs → b.data ≠ []

/-- A pack the work-in-progress index lists, in the working directory or the repository. -/
def WipPack (w : World Id) (p : Id) (bs : Pack Id) : Prop :=
  ∃ x, w.cwd.wip = some x ∧ (p, Pack.manifestOf bs) ∈ x.packs ∧
    ((p, bs) ∈ w.cwd.packs ∨ (p, bs) ∈ w.repo.packs)

/-- Index `x` lists whatever is listed by those of the live indexes that it supersedes. -/
def Covers (x : Index Id) (files : BMap Id (Index Id)) : Prop :=
  ∀ i ∈ x.supersedes, ∀ y, LiveIndex files i y → ∀ e ∈ y.packs, e ∈ x.packs

/-- What an interrupted backup or rebuild-index leaves: packs under the IDs of their contents; an index
that lists packs that are here or in the repository, those of any index it supersedes among them; and no
blob in two packs, those of the repository included. -/
structure Leftover [LinearOrder Id] (C : Codec Id) (ids : Ids Id) (w : World Id) : Prop where
  names : ∀ p bs, (p, bs) ∈ w.cwd.packs → p = ids.packId (Pack.manifestOf bs)
  sup : ∀ x, w.cwd.wip = some x → Covers x w.repo.indexes
  sorted : ∀ x, w.cwd.wip = some x → BMap.Sorted x.packs
  there : ∀ x p m, w.cwd.wip = some x → (p, m) ∈ x.packs →
    ∃ bs, ((p, bs) ∈ w.cwd.packs ∨ (p, bs) ∈ w.repo.packs) ∧ m = Pack.manifestOf bs
  ledger : Ledger C (fun p bs => LivePack w.repo p bs ∨ WipPack w p bs)

end Backpak
