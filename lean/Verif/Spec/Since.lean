import Verif.Spec.Restore
import Verif.Spec.Diff

/-!
# What has changed since a snapshot
-/

namespace Backpak.Spec

instance (a b : Meta) : Decidable (Unmodified a b) := by unfold Unmodified; infer_instance

/-- One is a file and the other a directory, say, or they are symlinks to different places. -/
def OtherThing (e e' : Ent) : Prop :=
  match e.2, e'.2 with
  | some (.file _), some (.file _) => False
  | some (.link t), some (.link t') => t ≠ t'
  | none, none => False
  | _, _ => True

/-- The signs a path should have, given what was there and what is there: `+` if it is new or has
become another thing, `-` if it is gone or was another thing, `C` if it is a file with other bytes, and
if metadata is asked for, a letter if it is the same but for its metadata. -/
def Says (withMeta : Bool) (before after : Option Ent) : Sign → Prop
  | .plus => ∃ e, after = some e ∧ ∀ e', before = some e' → OtherThing e' e
  | .minus => ∃ e, before = some e ∧ ∀ e', after = some e' → OtherThing e e'
  | .changed => ∃ md md' x x', before = some (md, some (.file x)) ∧ after = some (md', some (.file x')) ∧ x ≠ x'
  | .md c => withMeta = true ∧ ∃ md md' l, before = some (md, l) ∧ after = some (md', l) ∧ md ≠ md' ∧
      c = metaDiffChar md md'

/-- The same, apart from metadata unless that is asked for. -/
def SameEnt (withMeta : Bool) : Option Ent → Option Ent → Prop
  | none, none => True
  | some e, some e' => e.2 = e'.2 ∧ (withMeta = true → e.1 = e'.1)
  | _, _ => False

/-- What is at a path for those who do not open files that look unmodified, and pass over special
files. -/
def seenAt : Option Ent → Option Ent → Option Ent
  | some (m, some (.file x0)), some (md, some (.file x)) =>
    if Unmodified md m then some (md, some (.file x0)) else some (md, some (.file x))
  | _, some (_, some .other) => none
  | _, e => e

/-- A file tree for those. -/
def asSeen : Dir Bytes → Dir Bytes → Dir Bytes
  | _, .nil => .nil
  | d0, .leaf n md l r =>
    match l with
    | .other => asSeen d0 r
    | .link t => .leaf n md (.link t) (asSeen d0 r)
    | .file x =>
      .leaf n md (.file (match fileAt d0 n with
        | some (m, x0) => if Unmodified md m then x0 else x
        | none => x)) (asSeen d0 r)
  | d0, .dir n md s r => .dir n md (asSeen (subAt d0 n) s) (asSeen d0 r)

/-- What is at the paths of a snapshot. -/
def there {Id : Type} (s : Snapshot Id) (look : Look) : Dir Bytes :=
  listing (s.paths.map (fun p => (lastName p, look p)))

variable {Id : Type} [LinearOrder Id]

/-- ID `id` stands for file tree `d`, and files have the chunks the chunker makes of them. -/
def HoldsCut (C : Codec Id) (R : Repo Id) (cut : Bytes → Nat) (id : Id) (d : Dir Bytes) : Prop :=
  ∃ t, TreeAt C R id t ∧
    DirRel (fun cs x => FileHolds C R cs x ∧ cs = (Chunk.chunkFile C.hash cut x).map Blob.id) (TreeAt C R) t d

/-- No two chunks of files of these trees hash alike. -/
def ChunksDiffer (C : Codec Id) (cut : Bytes → Nat) (d d' : Dir Bytes) : Prop :=
  ∀ x y, HasFile x d ∨ HasFile x d' → HasFile y d ∨ HasFile y d' →
    ∀ b ∈ Chunk.chunkFile C.hash cut x, ∀ c ∈ Chunk.chunkFile C.hash cut y, b.id = c.id → b.data = c.data

/-- What it takes to compare a snapshot with its paths. `d1` is what the snapshot holds. -/
structure DiffOk (C : Codec Id) (R : Repo Id) (cut : Bytes → Nat) (look : Look) (s : Snapshot Id)
    (d1 : Dir Bytes) : Prop where
  /- the snapshot -/
  holds : HoldsCut C R cut s.tree d1
  kinds1 : d1.KindsOk
  fits1 : Fits d1
  named : ∀ p ∈ s.paths, fileName p ≠ none
  distinct : (s.paths.map lastName).Nodup
  few : s.paths.length < 2 ^ 64
  /- what is there -/
  present : ∀ p ∈ s.paths, look p ≠ none
  kinds2 : (there s look).KindsOk
  sorted : SubsSorted (there s look)
  fits2 : Fits (there s look)
  /- hashes -/
  contract : Chunk.Contract cut
  chunks : ChunksDiffer C cut d1 (there s look)
  trees : ∀ t t', InvolvedTree C R cut (asSeen d1 (there s look)) [] t →
    InvolvedTree C R cut (asSeen d1 (there s look)) [] t' →
    C.hash (C.encTree t) = C.hash (C.encTree t') → t = t'

end Backpak.Spec
