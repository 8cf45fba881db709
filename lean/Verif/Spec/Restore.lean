import Verif.Model.Restore
import Verif.Spec.Path
import Verif.Spec.Listing
import Verif.Spec.Clash

/-!
# What a restore should leave behind
-/

namespace Backpak.Spec

/-- The paths a restore is meant to restore: the output if there is one, else the snapshot's. -/
def Destination {Id : Type} (args : RestoreArgs) (s : Snapshot Id) (p : Path) : Prop :=
  match args.output with
  | some dst => p = dst
  | none => p ∈ s.paths

/-- At or below one of them. -/
def Inside {Id : Type} (args : RestoreArgs) (s : Snapshot Id) (q : Path) : Prop :=
  ∃ p, Destination args s p ∧ p <+: q

/-- An entry of a directory: its metadata and what it is (`none` for a directory). -/
abbrev Ent := Meta × Option (Leaf Bytes)

/-- What an entry is. -/
def itemOf : Option (Leaf Bytes) → Item
  | none => .dir
  | some (.file x) => .file x
  | some (.link t) => .link t
  | some .other => .other

/-- The permission bits are those of the metadata. -/
def ModeOk (o : Obj) (md : Meta) : Prop := ∀ p, md = .posix p → o.mode = p.mode % 0o10000

/-- The modification time is that of the metadata. -/
def TimeOk (o : Obj) (md : Meta) : Prop := ∀ p, md = .posix p → o.mtime = p.mtime

/-- What is at a path is what an entry says. -/
def Shows : Option Obj → Option Ent → Prop
  | none, none => True
  | some o, some e => o.item = itemOf e.2 ∧ ModeOk o e.1 ∧ TimeOk o e.1
  | _, _ => False

/-- What is at and below an entry. -/
def view : Option (Ent × Dir Bytes) → Path → Option Ent
  | none, _ => none
  | some (e, _), [] => some e
  | some ((_, none), sub), q => entry sub q
  | some ((_, some _), _), _ => none

/-- The program sees what is there. -/
def Seen (look : Look) (fs : Fs) (p : Path) : Prop := ∀ q, Shows (fs (p ++ q)) (view (look p) q)

/-- What should be at a path afterwards, given what was there and what the snapshot has there: the
same as in the snapshot, with permissions if they are restored and, for files, times if they are; and
if the snapshot has nothing, nothing if the restore deletes, else what was there. -/
def After (args : RestoreArgs) (before : Option Obj) : Option Ent → Option Obj → Prop
  | none, o => if args.delete then o = none else o = before
  | some (md, l), o => ∃ x, o = some x ∧ x.item = itemOf l ∧
      (args.permissions = true → (∀ t, l ≠ some (.link t)) → ModeOk x md) ∧
      (args.times = true → (∃ y, l = some (.file y)) → TimeOk x md)

/-- A path at or below a directory for which the snapshot has something else, when nothing may be
deleted. -/
def Conflict (args : RestoreArgs) (before after : Path → Option Ent) (q : Path) : Prop :=
  args.delete = false ∧ ∃ r, r <+: q ∧ (∃ md, before r = some (md, none)) ∧
    ∃ md l, after r = some (md, some l)

/-- What should be at a path afterwards, if a directory in the way is to be left alone. -/
def Ends (args : RestoreArgs) (before after : Path → Option Ent) (q : Path) (o o' : Option Obj) : Prop :=
  (Conflict args before after q → o' = o) ∧ (¬ Conflict args before after q → After args o (after q) o')

/-- A path whose parent is a directory that can be reached without following symlinks. -/
structure Enter (fs : Fs) (p : Path) : Prop where
  ne : p ≠ []
  links : ∀ k, k < p.length → Fs.isLink (fs (p.take k)) = false
  parent : Fs.isDir (fs p.dropLast) = true

/-- Neither is above the other. -/
def Apart (p q : Path) : Prop := ¬ p <+: q ∧ ¬ q <+: p

/-! ## When a restore works -/

/-- The last component of a path. -/
def lastName (p : Path) : Name := p.getLast?.getD []

/-- Where a path of the snapshot is restored: in place if there is no output, the output itself if it
is the only path, else in the output. -/
def dest {Id : Type} (args : RestoreArgs) (s : Snapshot Id) (p : Path) : Path :=
  match args.output, s.paths with
  | none, _ => p
  | some dst, [_] => dst
  | some dst, _ => dst ++ [lastName p]

/-- What is there before. -/
def now {Id : Type} (args : RestoreArgs) (s : Snapshot Id) (look : Look) : Dir Bytes :=
  listing (s.paths.map (fun p => (lastName p, look (dest args s p))))

section
variable {Id : Type} [LinearOrder Id]

/-- The files there whose chunks are known by the ID of their bytes, and the files of trees in the
repository. -/
def KnownFile (C : Codec Id) (R : Repo Id) (cut : Bytes → Nat) (d : Dir Bytes) (cs : List Id) (x : Bytes) : Prop :=
  (HasFile x d ∧ cs = (Chunk.chunkFile C.hash cut x).map Blob.id) ∨
  (FileHolds C R cs x ∧ ∃ id t n md, TreeAt C R id t ∧ (n, (⟨.file cs, md⟩ : Node Id)) ∈ t)

/-- The trees a restore hashes: those of the repository, those of directories at the destination,
and those of the list of destinations, by the names in the snapshot or by their own. -/
def InvolvedTree (C : Codec Id) (R : Repo Id) (cut : Bytes → Nat) (d : Dir Bytes) (others : List (Dir Bytes))
    (t : Tree Id) : Prop :=
  (∃ id, TreeAt C R id t) ∨
  ∃ s, (SubDir s d ∨ (s.Sorted ∧ ∀ n, child s n = child d n) ∨ s ∈ others) ∧ Serde.OkTree t ∧
    ByHash C (KnownFile C R cut d) t s

/-- The destination under its own name, if it is the output and the snapshot has a single path. -/
def underOwnName (args : RestoreArgs) (s : Snapshot Id) (look : Look) : List (Dir Bytes) :=
  match args.output, s.paths with
  | some dst, [_] => [single (lastName dst) (look dst) .nil]
  | _, _ => []

/-- What a restore needs to work, but for the times it sets. `d2` is what the snapshot holds. -/
structure RestoreBut (C : Codec Id) (R : Repo Id) (cut : Bytes → Nat) (look : Look) (dangling : Path → Bool)
    (args : RestoreArgs) (s : Snapshot Id) (d2 : Dir Bytes) (fs : Fs) : Prop where
  /- the snapshot -/
  holds : Holds C R s.tree d2
  kinds2 : d2.KindsOk
  posix : args.permissions = true → AllPosix d2
  tops : ∀ n ∈ d2.names, ∃ p ∈ s.paths, lastName p = n
  named : ∀ p ∈ s.paths, fileName p ≠ none
  distinct : (s.paths.map lastName).Nodup
  few : s.paths.length < 2 ^ 64
  /- where it goes -/
  apart : args.output = none → s.paths.Pairwise Apart
  present : args.output = none → ∀ p ∈ s.paths, look p ≠ none
  single : ∀ dst p, args.output = some dst → s.paths = [p] →
    look dst ≠ none ∧ fileName dst ≠ none ∧ (lastName dst).length < 2 ^ 64
  solid : ∀ dst, args.output = some dst → s.paths.length ≠ 1 → ∀ p ∈ s.paths, dangling (dst ++ [lastName p]) = false
  enter : ∀ p ∈ s.paths, Enter fs (dest args s p)
  /- what is there -/
  seen : ∀ p ∈ s.paths, Seen look fs (dest args s p)
  plain : Plain (now args s look)
  kinds1 : (now args s look).KindsOk
  sorted : SubsSorted (now args s look)
  fits : Fits (now args s look)
  faithful : Faithful d2 (now args s look)
  /- hashes -/
  contract : Chunk.Contract cut
  chunks : ∀ x, HasFile x (now args s look) → ∀ b ∈ Chunk.chunkFile C.hash cut x, ∀ z, Has C R ⟨z, b.id, .chunk⟩ →
    z = b.data
  trees : ∀ t t', InvolvedTree C R cut (now args s look) (underOwnName args s look) t →
    InvolvedTree C R cut (now args s look) (underOwnName args s look) t' →
    C.hash (C.encTree t) = C.hash (C.encTree t') → t = t'

/-- What a restore needs to work. -/
structure RestoreOk (C : Codec Id) (R : Repo Id) (cut : Bytes → Nat) (look : Look) (dangling : Path → Bool)
    (args : RestoreArgs) (s : Snapshot Id) (d2 : Dir Bytes) (fs : Fs) : Prop extends
    RestoreBut C R cut look dangling args s d2 fs where
  /- times that can be set (see C93) -/
  datable : args.times = true → AllMeta Datable d2

end

end Backpak.Spec
