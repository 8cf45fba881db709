import Verif.Spec.Restore
import Verif.Model.Backup

/-!
# Backing up and restoring
-/

namespace Backpak.Spec

/-- What a backup is given is what is at its paths: `look` says what is at each. -/
structure Given (look : Look) (a : BackupArgs) : Prop where
  fs : gather look a.paths = .ok a.fs
  distinct : (a.paths.map lastName).Nodup
  pathOf : ∀ p ∈ a.paths, a.pathOf (lastName p) = p
  kinds : a.fs.KindsOk
  few : a.paths.length < 2 ^ 64
  short : ∀ p ∈ a.paths, (lastName p).length < 2 ^ 64

/-- Neither a path nor anything above it, down from one of the paths backed up, is skipped. -/
def Wanted (filter : Path → Bool) (p q : Path) : Prop := ∀ k, k ≤ q.length → filter (p ++ q.take k) = true

/-- What a backup should have for what is at `p ++ q`: just that, but nothing for what is skipped and for
special files. -/
structure Kept (filter : Path → Bool) (p q : Path) (there had : Option Ent) : Prop where
  same : Wanted filter p q → (∀ md, there ≠ some (md, some .other)) → had = there
  skipped : ¬ Wanted filter p q → had = none
  special : (∃ md, there = some (md, some .other)) → had = none

/-- An empty directory. -/
structure EmptyDir (look : Look) (dangling : Path → Bool) (fs : Fs) (dst : Path) (md : Meta) : Prop where
  enter : Enter fs dst
  there : ∃ o, fs dst = some o ∧ o.item = .dir ∧ ModeOk o md ∧ TimeOk o md
  seen : look dst = some ((md, none), .nil)
  kind : md.kind = .dir
  ok : Serde.OkMeta md
  empty : ∀ q, q ≠ [] → fs (dst ++ q) = none ∧ look (dst ++ q) = none
  links : ∀ n, dangling (dst ++ [n]) = false
  named : fileName dst ≠ none
  short : (lastName dst).length < 2 ^ 64

/-- When a single path is restored to a directory, the two lists with just that directory, by the
name of the path and by its own: no two of these and the trees of the repository have one hash. -/
def OneClash {Id : Type} [LinearOrder Id] (C : Codec Id) (R : Repo Id) (paths : List Path) (dst : Path) (md : Meta) : Prop :=
  ∀ p, paths = [p] → ∀ t t' : Tree Id,
    ((∃ id, TreeAt C R id t) ∨ t = [(lastName p, ⟨.dir C.emptyId, md⟩)] ∨ t = [(lastName dst, ⟨.dir C.emptyId, md⟩)]) →
    ((∃ id, TreeAt C R id t') ∨ t' = [(lastName p, ⟨.dir C.emptyId, md⟩)] ∨ t' = [(lastName dst, ⟨.dir C.emptyId, md⟩)]) →
    C.hash (C.encTree t) = C.hash (C.encTree t') → t = t'

end Backpak.Spec
