import Verif.Model.Source
import Verif.Model.Dir
import Verif.Model.Chunk

/-!
# Walking the filesystem (`src/fs_tree.rs`) and backing it up (`src/ui/backup.rs:402-560`)

The filesystem is a `Dir Bytes`: its entries as `read_dir` and `get_metadata` report them under
the chosen symlink behaviour. It does not change during the walk.
-/

namespace Backpak

variable {Id : Type} [LinearOrder Id]

/-- `file_changed` (`src/fs_tree.rs:17-49`). -/
def fileChanged (md : Meta) (prev : Option (Node Id)) : Res Bool :=
  if md.kind ≠ .file then .error (.panic "assertion failed: metadata.kind() == NodeType::File")
  else
    match prev with
    | none => .ok true
    | some p =>
      match p.kind with
      | .error e => .error e
      | .ok k =>
        if k ≠ md.kind then .ok true
        else if md.mtime ≠ p.md.mtime then .ok true
        else if md.size ≠ p.md.size then .ok true
        else .ok false

/-- `DirectoryEntry` (`src/fs_tree.rs:53-61`). A changed file carries what the visitor will
read from its path: its bytes, if it does not change meanwhile. -/
inductive DirEntry (T : Type) (F : Type := Bytes)
  | dir (t : T)
  | link (target : Bytes)
  | unchanged
  | changed (data : F)

/-- The two closures given to `walk_fs`, over a state `S` they share. -/
structure Visitor (Id T I S : Type) (F : Type := Bytes) where
  init : I
  visit : I → Name → Meta → Option (Node Id) → DirEntry T F → S → Res (I × S)
  finalize : I → S → Res (T × S)

/-- The previous subtree of a directory (`src/fs_tree.rs:126-137`). -/
def prevSubtree (prev : Option (Node Id)) : Option Id :=
  match prev with
  | some ⟨.dir sub, _⟩ => some sub
  | _ => none

/-- The loop of `walk_fs` (`src/fs_tree.rs:104-176`) over the entries `d`. `pathOf` is the full
path of an entry by name. -/
def walkFs {T I S F : Type} (v : Visitor Id T I S F) (filter : Path → Bool) (prevForest : Forest Id) :
    (pathOf : Name → Path) → (prevTree : Option (Tree Id)) → Dir F → I → S → Res (I × S)
  | _, _, .nil, i, s => .ok (i, s)
  | pathOf, prevTree, .leaf n md l rest, i, s =>
    if filter (pathOf n) = false then walkFs v filter prevForest pathOf prevTree rest i s
    else
      let prev := prevTree.bind (fun t => BMap.get? t n)
      match l with
      | .other => walkFs v filter prevForest pathOf prevTree rest i s
      | .link target =>
        match v.visit i n md prev (.link target) s with
        | .error e => .error e
        | .ok (i', s') => walkFs v filter prevForest pathOf prevTree rest i' s'
      | .file data =>
        match fileChanged md prev with
        | .error e => .error e
        | .ok ch =>
          match v.visit i n md prev (if ch then .changed data else .unchanged) s with
          | .error e => .error e
          | .ok (i', s') => walkFs v filter prevForest pathOf prevTree rest i' s'
  | pathOf, prevTree, .dir n md sub rest, i, s =>
    if filter (pathOf n) = false then walkFs v filter prevForest pathOf prevTree rest i s
    else
      let prev := prevTree.bind (fun t => BMap.get? t n)
      let prevSub := (prevSubtree prev).bind (fun id => prevForest.get? id)
      match walkFs v filter prevForest (fun m => pathOf n ++ [m]) prevSub sub v.init s with
      | .error e => .error e
      | .ok (j, s1) =>
        match v.finalize j s1 with
        | .error e => .error e
        | .ok (t, s2) =>
          match v.visit i n md prev (.dir t) s2 with
          | .error e => .error e
          | .ok (i', s') => walkFs v filter prevForest pathOf prevTree rest i' s'

/-- `walk_fs` from the top (`src/fs_tree.rs:78-177`). -/
def walkTop {T I S F : Type} (v : Visitor Id T I S F) (filter : Path → Bool) (prevForest : Forest Id)
    (pathOf : Name → Path) (prevRoot : Option Id) (d : Dir F) (s : S) : Res (T × S) :=
  match walkFs v filter prevForest pathOf (prevRoot.bind (fun id => prevForest.get? id)) d v.init s with
  | .error e => .error e
  | .ok (i, s') => v.finalize i s'

/-- What a backup's walk keeps: the IDs known to be packed, and the blobs sent so far. -/
structure Sends (Id : Type) where
  packed : List Id
  sent : List (Blob Id)
deriving DecidableEq, Repr

/-- Send a blob unless its ID is known (`src/ui/backup.rs:457-468,518-531`,
`src/repack.rs:190-197,234-250`). -/
def offer (s : Sends Id) (b : Blob Id) : Sends Id :=
  if b.id ∈ s.packed then s else ⟨b.id :: s.packed, s.sent ++ [b]⟩

/-- Insert a node under a new name (`src/ui/backup.rs:487-503`, `src/fs_tree.rs:219-223`). -/
def addNode (t : Tree Id) (n : Name) (x : Node Id) : Res (Tree Id) :=
  if (t.get? n).isSome then .error (.err "Duplicate tree entries") else .ok (BMap.insert n x t)

/-- The visitor of `backup_tree` (`src/ui/backup.rs:424-550`). -/
def backupVisitor (C : Codec Id) (cut : Bytes → Nat) : Visitor Id Id (Tree Id) (Sends Id) where
  init := []
  visit t n md prev e s :=
    match e with
    | .dir sub => (addNode t n ⟨.dir sub, md⟩).map (fun t' => (t', s))
    | .link target => (addNode t n ⟨.link target, md⟩).map (fun t' => (t', s))
    | .unchanged =>
      if md.size = none then .error (.panic "files have sizes")
      else
        match prev with
        | none => .error (.panic "called `Option::unwrap()` on a `None` value")
        | some p => (addNode t n ⟨p.contents, md⟩).map (fun t' => (t', s))
    | .changed data =>
      let chunks := Chunk.chunkFile C.hash cut data
      (addNode t n ⟨.file (chunks.map Blob.id), md⟩).map (fun t' => (t', chunks.foldl offer s))
  finalize t s :=
    if t = [] then .ok (C.emptyId, s)
    else
      let bytes := C.encTree t
      .ok (C.hash bytes, offer s ⟨bytes, C.hash bytes, .tree⟩)

/-- `backup_tree` (`src/ui/backup.rs:402-560`). -/
def backupTree (C : Codec Id) (cut : Bytes → Nat) (filter : Path → Bool) (prevForest : Forest Id)
    (pathOf : Name → Path) (prevRoot : Option Id) (d : Dir Bytes) (s : Sends Id) :
    Res (Id × Sends Id) :=
  walkTop (backupVisitor C cut) filter prevForest pathOf prevRoot d s

/-- The visitor of `forest_from_fs` (`src/fs_tree.rs:188-239`). -/
def forestVisitor (C : Codec Id) (cut : Bytes → Nat) :
    Visitor Id (Id × Forest Id) (Tree Id × Forest Id) Unit where
  init := ([], [])
  visit := fun (t, f) n md prev e s =>
    match e with
    | .dir (sub, f') =>
      (addNode t n ⟨.dir sub, md⟩).map
        (fun t' => ((t', f'.foldl (fun f e => BMap.insert e.1 e.2 f) f), s))
    | .link target => (addNode t n ⟨.link target, md⟩).map (fun t' => ((t', f), s))
    | .unchanged =>
      match prev with
      | none => .error (.panic "called `Option::unwrap()` on a `None` value")
      | some p => (addNode t n ⟨p.contents, md⟩).map (fun t' => ((t', f), s))
    | .changed data =>
      (addNode t n ⟨.file ((Chunk.chunkFile C.hash cut data).map Blob.id), md⟩).map
        (fun t' => ((t', f), s))
  finalize := fun (t, f) s =>
    let id := C.hash (C.encTree t)
    .ok ((id, BMap.insert id t f), s)

/-- `forest_from_fs` (`src/fs_tree.rs:181-250`). -/
def forestFromFs (C : Codec Id) (cut : Bytes → Nat) (prevForest : Forest Id)
    (pathOf : Name → Path) (prevRoot : Option Id) (d : Dir Bytes) : Res (Id × Forest Id) :=
  (walkTop (forestVisitor C cut) (fun _ => true) prevForest pathOf prevRoot d ()).map Prod.fst

end Backpak
