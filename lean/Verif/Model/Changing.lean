import Verif.Model.Backup

/-!
# A backup of files that change (`src/file_util.rs:42-60`, `src/chunk.rs:39-176`, `src/fs_tree.rs:78-177`)

`Model/Walk` walks a filesystem that stays as it is. Here every system call is made at a moment, and
anything may have happened to the filesystem between two moments.

A small file is read into memory once, and everything is made of that copy. A large one is mapped: its
bytes are looked at when a chunk is cut off, again when the chunk is hashed, and again when the packer
writes it to a pack (`src/chunk.rs:152-157`, `src/pack.rs:230-243`). What they are then is what they are
then.
-/

namespace Backpak

open Pipeline

/-- What system calls answer at a moment. Opening a path gives a file; what is in an open file can be
had also once another is at its path. -/
structure Moment where
  /-- `get_metadata` (`src/fs_tree.rs:121`) -/
  stat : Path → Res Meta
  /-- `read_dir_utf8`, into a set (`src/fs_tree.rs:127-130`) -/
  list : Path → Res (List Name)
  /-- `read_link_utf8` (`src/fs_tree.rs:159-160`) -/
  link : Path → Res Bytes
  /-- `File::open` (`src/file_util.rs:46`) -/
  file : Path → Res Nat
  /-- What is in an open file. -/
  bytes : Nat → Bytes

/-- The filesystem at every moment. -/
abbrev History := Nat → Moment

/-- The size from which on a file is mapped (`src/file_util.rs:44,49`). -/
def mapFrom : Nat := 10 * (1024 * 1024)

/-- A chunk of a mapped file: its bytes when it is hashed, and when it is packed. -/
structure Piece where
  hashed : Bytes
  packed : Bytes
deriving DecidableEq, Repr

/-- What a backup has of a file. -/
inductive Shot
  /-- It does not look modified, and is not opened. What is in it then is noted here for what is to be
  said about it; the program does not know. -/
  | unread (data : Bytes)
  /-- The buffer it was read into (`LoadedFile::Buffered`). -/
  | read (data : Bytes)
  /-- A mapping (`LoadedFile::Mapped`), by its chunks. -/
  | mapped (pieces : List Piece)
deriving DecidableEq, Repr

/-- What is read of an open file from offset `off` on, at moments from `t` on until `u`: each byte is there
at one of them. -/
def ReadAt (H : History) (i off t u : Nat) (x : Bytes) : Prop :=
  t ≤ u ∧ ∀ (j : Nat) (b : UInt8), x[j]? = some b → ∃ m, t ≤ m ∧ m ≤ u ∧ ((H m).bytes i)[off + j]? = some b

/-- What a mapping shows from offset `off` on, at moments from `t` on until `u`: each byte is what is there
at one of them. If the file has become shorter meanwhile there is nothing there; then either the process
is killed, and this is not the case, or it sees the rest of a page, about which nothing is said. -/
def ShownAt (H : History) (i off t u : Nat) (x : Bytes) : Prop :=
  t ≤ u ∧ ∀ (j : Nat) (b : UInt8), x[j]? = some b →
    ∃ m, t ≤ m ∧ m ≤ u ∧ ∀ b', ((H m).bytes i)[off + j]? = some b' → b = b'

/-- `read_to_end` (`src/file_util.rs:51`) from offset `off` on, at moments from `t` on until `u`: reads that
give something, until one finds nothing. -/
inductive ReadTo (H : History) (i : Nat) : Nat → Nat → Nat → Bytes → Prop
  | done {off t u} : t ≤ u → ((H u).bytes i).length ≤ off → ReadTo H i off t u []
  | more {off t v u x y} : x ≠ [] → ReadAt H i off t v x → ReadTo H i (off + x.length) v u y →
      ReadTo H i off t u (x ++ y)

/-- The chunks of a mapping of `len` bytes, from offset `off` on: each is cut at moments from `t` on, then
hashed, until moment `u`, and then packed, until moment `z` (`src/chunk.rs:113-137,162-176`,
`src/pack.rs:230-243`). -/
inductive Mapped (H : History) (cut : Bytes → Nat) (i len z : Nat) : Nat → Nat → Nat → List Piece → Prop
  | done {off t u r} : t ≤ u → u ≤ z → r.length = len - off → ShownAt H i off t u r →
      ¬ (0 < cut r ∧ cut r ≤ len - off) → Mapped H cut i len z off t u []
  | piece {off t u c h p r x y l} : h ≤ u → p ≤ z →
      r.length = len - off → ShownAt H i off t c r → 0 < cut r → cut r ≤ len - off →
      x.length = cut r → ShownAt H i off c h x → y.length = cut r → ShownAt H i off h p y →
      Mapped H cut i len z (off + cut r) c u l → Mapped H cut i len z off t u (⟨x, y⟩ :: l)

/-- `read_file` and what follows (`src/file_util.rs:43-60`), at moments from `t` on until `u`. The length is
asked for once to choose (`src/file_util.rs:47`) and again by the mapping. -/
inductive Opened (H : History) (cut : Bytes → Nat) (z : Nat) (p : Path) : Nat → Nat → Shot → Prop
  | small {t o s u i x} : t ≤ o → (H o).file p = .ok i → o ≤ s → ((H s).bytes i).length < mapFrom →
      ReadTo H i 0 s u x → Opened H cut z p t u (.read x)
  | large {t o s m u i l} : t ≤ o → (H o).file p = .ok i → o ≤ s → mapFrom ≤ ((H s).bytes i).length →
      s ≤ m → Mapped H cut i ((H m).bytes i).length z 0 m u l → Opened H cut z p t u (.mapped l)

variable {Id : Type} [LinearOrder Id]

/-- The blobs of a file: a chunk of a mapped file has the ID of what was hashed and the bytes that were
packed (`src/chunk.rs:162-176`, `src/pack.rs:230-243`). -/
def Shot.blobs (C : Codec Id) (cut : Bytes → Nat) : Shot → List (Blob Id)
  | .unread _ => []
  | .read x => Chunk.chunkFile C.hash cut x
  | .mapped l => l.map (fun p => ⟨p.packed, C.hash p.hashed, .chunk⟩)

/-- What a walk that succeeds sees, at moments from `t` on until `u`, compared to a previous tree
(`src/fs_tree.rs:104-176`): the metadata of each entry, and then what is in it. Entries that are skipped
are not looked at. -/
def Saw (H : History) (cut : Bytes → Nat) (z : Nat) (filter : Path → Bool) (F : Forest Id) :
    (pathOf : Name → Path) → (prev : Option (Tree Id)) → Dir Shot → Nat → Nat → Prop
  | _, _, .nil, t, u => t ≤ u
  | pathOf, prev, .leaf n md l rest, t, u =>
    if filter (pathOf n) = false then Saw H cut z filter F pathOf prev rest t u
    else ∃ s v, t ≤ s ∧ (H s).stat (pathOf n) = .ok md ∧ s ≤ v ∧
      (match l with
        | .other => ∃ b, md.kind = .unsupported b
        | .link target => md.kind = .link ∧ (H v).link (pathOf n) = .ok target
        | .file x => md.kind = .file ∧
          match fileChanged md (prev.bind (fun t => BMap.get? t n)) with
          | .error _ => False
          | .ok true => Opened H cut z (pathOf n) s v x
          | .ok false => ∃ y, x = .unread y ∧ ∀ i, (H s).file (pathOf n) = .ok i → y = (H s).bytes i) ∧
      Saw H cut z filter F pathOf prev rest v u
  | pathOf, prev, .dir n md sub rest, t, u =>
    if filter (pathOf n) = false then Saw H cut z filter F pathOf prev rest t u
    else ∃ s r v, t ≤ s ∧ (H s).stat (pathOf n) = .ok md ∧ md.kind = .dir ∧ s ≤ r ∧
      (H r).list (pathOf n) = .ok sub.names ∧
      Saw H cut z filter F (fun m => pathOf n ++ [m])
        ((prevSubtree (prev.bind (fun t => BMap.get? t n))).bind (fun id => F.get? id)) sub r v ∧
      Saw H cut z filter F pathOf prev rest v u

/-- The visitor of `backup_tree` (`src/ui/backup.rs:424-550`), whatever it has of a file. -/
def backupVisitorOf {X : Type} (C : Codec Id) (blobs : X → List (Blob Id)) :
    Visitor Id Id (Tree Id) (Sends Id) X where
  init := []
  visit t n md prev e s :=
    match e with
    | .dir sub => (addNode t n ⟨.dir sub, md⟩).map (fun t' => (t', s))
    | .link target => (addNode t n ⟨.link target, md⟩).map (fun t' => (t', s))
    | .unchanged =>
      if md.size = none then .error (.panic "files have sizes")
      else
        match prev with
        | none => .error (.panic "called `Option::unwrap()` on a `None` value")
        | some p => (addNode t n ⟨p.contents, md⟩).map (fun t' => (t', s))
    | .changed x =>
      (addNode t n ⟨.file ((blobs x).map Blob.id), md⟩).map (fun t' => (t', (blobs x).foldl offer s))
  finalize t s :=
    if t = [] then .ok (C.emptyId, s)
    else
      let bytes := C.encTree t
      .ok (C.hash bytes, offer s ⟨bytes, C.hash bytes, .tree⟩)

/-- `backup_tree` (`src/ui/backup.rs:402-560`) on what a walk saw. -/
def backupTreeOf (C : Codec Id) (cut : Bytes → Nat) (filter : Path → Bool) (prevForest : Forest Id)
    (pathOf : Name → Path) (prevRoot : Option Id) (d : Dir Shot) (s : Sends Id) : Res (Id × Sends Id) :=
  walkTop (backupVisitorOf C (Shot.blobs C cut)) filter prevForest pathOf prevRoot d s

/-- `backupPlan` (`src/ui/backup.rs:113-288`) when the walk saw `d`; what `a` says of the filesystem is
not used. -/
def backupPlanOf (C : Codec Id) (cut : Bytes → Nat) (w : World Id) (src : Source Id)
    (snaps : List (Snap Id)) (a : BackupArgs) (d : Dir Shot) : Res (Plan Id) :=
  let parent := parentSnapshot a.paths snaps
  match parentForest C src parent with
  | .error e => .error e
  | .ok F =>
    match Index.blobIds src.index with
    | .error e => .error e
    | .ok known =>
      match resumeFrom w with
      | .error e => .error e
      | .ok (start, here) =>
        let packed := BMap.keys known ++ listedIds start
        match backupTreeOf C cut a.filter F a.pathOf (parent.map (·.tree)) d ⟨packed, []⟩ with
        | .error e => .error e
        | .ok (root, s) =>
          .ok ⟨start, (if a.dryRun then [] else here.map Op.up) ++ s.sent.map Op.send,
            backupPost C a snaps start s.sent root⟩

/-- What the walk of a backup sees, when it is given `snaps` and the trees of their packs, and has ended with
everything packed at moment `z` (`src/ui/backup.rs:119-130,184-205`). -/
def BackupSaw (H : History) (C : Codec Id) (cut : Bytes → Nat) (src : Source Id) (snaps : List (Snap Id))
    (a : BackupArgs) (t z : Nat) (d : Dir Shot) : Prop :=
  d.names = a.fs.names ∧ ∀ F, parentForest C src (parentSnapshot a.paths snaps) = .ok F →
    ∃ u, u ≤ z ∧ Saw H cut z a.filter F a.pathOf
      (((parentSnapshot a.paths snaps).map (·.tree)).bind (fun id => F.get? id)) d t u

end Backpak
