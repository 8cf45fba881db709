import Verif.Spec.Restore

/-!
# Restoring again after a restore that was cut short
-/

namespace Backpak.Spec

variable {Id : Type} [LinearOrder Id]

/-- Every file looks as it should on Unix: its size is that of its bytes. -/
def Measured (d : Dir Bytes) : Prop :=
  ∀ q md x, entry d q = some (md, some (.file x)) → ∃ m, md = .posix m ∧ m.size = some x.length

/-- What a second restore needs of what it finds: the destinations are there if they have to be, the
program sees what is there, there are no special files, and no two different things that are hashed
have the same hash. Nothing is said of what the first restore has done. -/
structure FoundOk (C : Codec Id) (R : Repo Id) (cut : Bytes → Nat) (look : Look) (dangling : Path → Bool)
    (args : RestoreArgs) (s : Snapshot Id) (fs : Fs) : Prop where
  present : args.output = none → ∀ p ∈ s.paths, look p ≠ none
  single : ∀ dst p, args.output = some dst → s.paths = [p] →
    look dst ≠ none ∧ fileName dst ≠ none ∧ (lastName dst).length < 2 ^ 64
  solid : ∀ dst, args.output = some dst → s.paths.length ≠ 1 → ∀ p ∈ s.paths, dangling (dst ++ [lastName p]) = false
  seen : ∀ p ∈ s.paths, Seen look fs (dest args s p)
  plain : Plain (now args s look)
  kinds : (now args s look).KindsOk
  sorted : SubsSorted (now args s look)
  fits : Fits (now args s look)
  measured : Measured (now args s look)
  chunks : ∀ x, HasFile x (now args s look) → ∀ b ∈ Chunk.chunkFile C.hash cut x, ∀ z, Has C R ⟨z, b.id, .chunk⟩ →
    z = b.data
  trees : ∀ t t', InvolvedTree C R cut (now args s look) (underOwnName args s look) t →
    InvolvedTree C R cut (now args s look) (underOwnName args s look) t' →
    C.hash (C.encTree t) = C.hash (C.encTree t') → t = t'

end Backpak.Spec
