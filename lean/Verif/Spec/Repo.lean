import Verif.Model.Source
import Verif.Model.Dir
import Verif.Spec.Live

/-!
# What a repository holds

A relational account of the contents of a repository, independent of how the program walks
it: which blobs can be found, which file tree an ID stands for, and when a repository is in
good order.
-/

namespace Backpak.Spec

variable {Id : Type}

/-- Blob `b` can be found: a live index lists a pack that is there, with the pack's own
manifest, and the pack holds `b`, whose bytes hash to its ID. -/
def Has (C : Codec Id) (R : Repo Id) (b : Blob Id) : Prop :=
  C.hash b.data = b.id ∧
  ∃ p bs, Listed R.indexes p (bs.map fun b => ⟨b.kind, b.data.length, b.id⟩) ∧
    (p, bs) ∈ R.packs ∧ b ∈ bs

/-- A file's chunks and its bytes. -/
inductive FileHolds (C : Codec Id) (R : Repo Id) : List Id → Bytes → Prop
  | nil : FileHolds C R [] []
  | cons {c x cs y} : Has C R ⟨x, c, .chunk⟩ → FileHolds C R cs y → FileHolds C R (c :: cs) (x ++ y)

/-- ID `id` stands for tree `t`. The empty tree need not be stored. -/
def TreeAt (C : Codec Id) (R : Repo Id) (id : Id) (t : Tree Id) : Prop :=
  Serde.OkTree t ∧ C.hash (C.encTree t) = id ∧ (t = [] ∨ Has C R ⟨C.encTree t, id, .tree⟩)

/-- What the nodes of a tree stand for, all the way down: `PF` says what a list of chunks stands
for and `PT` which tree an ID stands for. -/
inductive DirRel (PF : List Id → Bytes → Prop) (PT : Id → Tree Id → Prop) :
    Tree Id → Dir Bytes → Prop
  | nil : DirRel PF PT [] .nil
  | file {n cs md t x d} : PF cs x → DirRel PF PT t d →
      DirRel PF PT ((n, ⟨.file cs, md⟩) :: t) (.leaf n md (.file x) d)
  | link {n tgt md t d} : DirRel PF PT t d →
      DirRel PF PT ((n, ⟨.link tgt, md⟩) :: t) (.leaf n md (.link tgt) d)
  | dir {n id md t t' sub d} : PT id t' → DirRel PF PT t' sub → DirRel PF PT t d →
      DirRel PF PT ((n, ⟨.dir id, md⟩) :: t) (.dir n md sub d)

/-- What the nodes of a tree stand for in a repository. -/
abbrev DirHolds (C : Codec Id) (R : Repo Id) : Tree Id → Dir Bytes → Prop :=
  DirRel (FileHolds C R) (TreeAt C R)

/-- ID `id` stands for file tree `d`. -/
def Holds (C : Codec Id) (R : Repo Id) (id : Id) (d : Dir Bytes) : Prop :=
  ∃ t, TreeAt C R id t ∧ DirHolds C R t d

/-- Trees reached from a tree through its subdirectories, given what IDs stand for. -/
inductive Reaches (T : Id → Tree Id → Prop) : Id → Id → Prop
  | refl {id} : Reaches T id id
  | step {id t n sub md id'} : T id t → (n, ⟨.dir sub, md⟩) ∈ t → Reaches T sub id' →
      Reaches T id id'

/-- A snapshot is readable: its whole tree and every chunk can be found. -/
def Readable (C : Codec Id) (R : Repo Id) (s : Snapshot Id) : Prop := ∃ d, Holds C R s.tree d

/-- A repository in good order: objects are stored under the IDs of their contents, every pack
a live index lists is there and as listed, no two listed blobs share an ID, blobs hash to
their IDs, each pack holds one kind of blob, tree blobs are encoded as the program encodes
them and do not collide with the empty tree, no blob is empty, and every snapshot is readable. -/
structure Healthy [LinearOrder Id] (C : Codec Id) (ids : Ids Id) (R : Repo Id) : Prop where
  packs_sorted : BMap.Sorted R.packs
  indexes_sorted : BMap.Sorted R.indexes
  snapshots_sorted : BMap.Sorted R.snapshots
  pack_names : ∀ p bs, (p, bs) ∈ R.packs → p = ids.packId (Pack.manifestOf bs)
  index_names : ∀ i x, (i, x) ∈ R.indexes → i = ids.indexId x
  index_packs : ∀ i x, (i, x) ∈ R.indexes → BMap.Sorted x.packs
  present : ∀ p m, Listed R.indexes p m → ∃ bs, (p, bs) ∈ R.packs ∧ Pack.manifestOf bs = m
  distinct : ∀ p m, Listed R.indexes p m → (m.map Entry.id).Nodup
  once : ∀ p m p' m' e e', Listed R.indexes p m → Listed R.indexes p' m' → e ∈ m → e' ∈ m' →
    e.id = e'.id → p = p'
  one_kind : ∀ p m, Listed R.indexes p m → ∃ k, ∀ e ∈ m, e.kind = k
  hashes : ∀ p bs b, Listed R.indexes p (Pack.manifestOf bs) → (p, bs) ∈ R.packs → b ∈ bs →
    C.hash b.data = b.id
  trees : ∀ p bs b, Listed R.indexes p (Pack.manifestOf bs) → (p, bs) ∈ R.packs → b ∈ bs →
    b.kind = .tree → ∃ t, Serde.OkTree t ∧ b.data = C.encTree t ∧ (b.id = C.emptyId → t = [])
  full : ∀ p bs b, Listed R.indexes p (Pack.manifestOf bs) → (p, bs) ∈ R.packs → b ∈ bs → b.data ≠ []
  readable : ∀ i s, (i, s) ∈ R.snapshots → Readable C R s

/-- `src` is what a command gets when it opens repository `R`: the master index in whatever
order the index files were loaded, its lookup table, and a reader for every pack. The
decompressed stream starts with the pack's blobs (C06). -/
structure Opens [LinearOrder Id] (R : Repo Id) (src : Source Id) : Prop where
  master : ∃ files : List (Id × Index Id), files.Perm R.indexes ∧
    Index.buildMaster (files.map fun e => (e.1, .ok e.2)) = .ok src.index
  blobMap : Index.blobToPack src.index = .ok src.blobMap
  read : ∀ p bs, (p, bs) ∈ R.packs → ∃ s, src.read p = .ok s ∧ Pack.contentOf bs <+: s.data
  absent : ∀ p, p ∉ BMap.keys R.packs → ∃ tag, src.read p = .error (.err tag)

end Backpak.Spec
