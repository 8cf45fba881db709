import Verif.Spec.Repo

/-!
# What a backup of a file tree should hold

Independent of the walk: the entries the filter keeps, in name order, and what it means for
files matching the parent snapshot to be unmodified.
-/

namespace Backpak.Spec

variable {Id : Type}

/-- The entries that are kept: not filtered out (with everything below) and of a supported
type. -/
def keep (filter : Path → Bool) : (pathOf : Name → Path) → Dir Bytes → Dir Bytes
  | _, .nil => .nil
  | pathOf, .leaf n md l rest =>
    if filter (pathOf n) = false ∨ l = .other then keep filter pathOf rest
    else .leaf n md l (keep filter pathOf rest)
  | pathOf, .dir n md sub rest =>
    if filter (pathOf n) = false then keep filter pathOf rest
    else .dir n md (keep filter (fun m => pathOf n ++ [m]) sub) (keep filter pathOf rest)

/-- Put all entries of a directory into another, by name. -/
def putAll : Dir Bytes → Dir Bytes → Dir Bytes
  | acc, .nil => acc
  | acc, .leaf n md l rest => putAll (acc.putLeaf n md l) rest
  | acc, .dir n md sub rest => putAll (Dir.putDir n md sub acc) rest

/-- The entries of a directory in name order. (The paths given to a backup are in path order,
but their names need not be.) -/
def arrange (d : Dir Bytes) : Dir Bytes := putAll .nil d

/-- Every directory below the top is in name order. -/
def SubsSorted : Dir Bytes → Prop
  | .nil => True
  | .leaf _ _ _ rest => SubsSorted rest
  | .dir _ _ sub rest => sub.Sorted ∧ SubsSorted rest

/-- The size of an entry's own data fits in 64 bits. -/
def LeafFits : Leaf Bytes → Prop
  | .file x => x.length < 2 ^ 64
  | .link t => t.length < 2 ^ 64
  | .other => True

/-- Every length in the tree fits in 64 bits and its metadata is in range. -/
def Fits : Dir Bytes → Prop
  | .nil => True
  | .leaf n md l rest => n.length < 2 ^ 64 ∧ Serde.OkMeta md ∧ LeafFits l ∧ Fits rest
  | .dir n md sub rest =>
    n.length < 2 ^ 64 ∧ Serde.OkMeta md ∧ sub.names.length < 2 ^ 64 ∧ Fits sub ∧ Fits rest

/-- A file's metadata shows no change: it was and is a file, of the same size and modification
time. -/
def Unmodified (now before : Meta) : Prop :=
  now.kind = .file ∧ before.kind = .file ∧ now.size = before.size ∧ now.mtime = before.mtime

/-- The node of the previous tree with a name. -/
def prevNode (prev : Option (Tree Id)) (n : Name) : Option (Node Id) := prev.bind (fun t => t.get? n)

/-- The previous tree of a subdirectory: what its node, if a directory, stands for. -/
def prevSub [LinearOrder Id] (F : Forest Id) (prev : Option (Tree Id)) (n : Name) : Option (Tree Id) :=
  match prevNode prev n with
  | some ⟨.dir id, _⟩ => F.get? id
  | _ => none

/-- Every file that looks unmodified since the previous tree has chunks there of which `P`
holds, with the file's bytes now. -/
def Reuse [LinearOrder Id] (P : List Id → Bytes → Prop) (F : Forest Id) :
    Option (Tree Id) → Dir Bytes → Prop
  | _, .nil => True
  | prev, .leaf n md l rest =>
    (∀ x cs m, l = .file x → prevNode prev n = some ⟨.file cs, m⟩ → Unmodified md m → P cs x) ∧
      Reuse P F prev rest
  | prev, .dir n _ sub rest => Reuse P F (prevSub F prev n) sub ∧ Reuse P F prev rest

/-- The file with a name, if there is one: its metadata and bytes. -/
def fileAt : Dir Bytes → Name → Option (Meta × Bytes)
  | .nil, _ => none
  | .leaf m md l r, n =>
    if n = m then (match l with | .file x => some (md, x) | _ => none) else fileAt r n
  | .dir m _ _ r, n => if n = m then none else fileAt r n

/-- The entries of the subdirectory with a name; none if there is no such directory. -/
def subAt : Dir Bytes → Name → Dir Bytes
  | .nil, _ => .nil
  | .leaf m _ _ r, n => if n = m then .nil else subAt r n
  | .dir m _ s r, n => if n = m then s else subAt r n

/-- Every file of the second tree that looks unmodified since the first has the bytes it had
then. -/
def Faithful : Dir Bytes → Dir Bytes → Prop
  | _, .nil => True
  | d0, .leaf n md l r =>
    (∀ x m x0, l = .file x → fileAt d0 n = some (m, x0) → Unmodified md m → x = x0) ∧ Faithful d0 r
  | d0, .dir n _ s r => Faithful (subAt d0 n) s ∧ Faithful d0 r

/-- Every file that does not look unmodified since the previous tree has been read: its chunks
are among the blobs. -/
def Reread {Id : Type} [LinearOrder Id] (chunks : Bytes → List (Blob Id)) (F : Forest Id)
    (L : List (Blob Id)) : Option (Tree Id) → Dir Bytes → Prop
  | _, .nil => True
  | prev, .leaf n md l r =>
    (∀ x, l = .file x → (∀ cs m, prevNode prev n = some ⟨.file cs, m⟩ → ¬ Unmodified md m) →
      ∀ b ∈ chunks x, b ∈ L) ∧ Reread chunks F L prev r
  | prev, .dir n _ s r => Reread chunks F L (prevSub F prev n) s ∧ Reread chunks F L prev r

/-- Files have sizes. -/
def Sized : Dir Bytes → Prop
  | .nil => True
  | .leaf _ md l r => (∀ x, l = .file x → md.size ≠ none) ∧ Sized r
  | .dir _ _ s r => Sized s ∧ Sized r

/-- The nodes of a forest agree with their metadata on what they are. -/
def NodesOk {Id : Type} [LinearOrder Id] (F : Forest Id) : Prop :=
  ∀ id t, F.get? id = some t → ∀ n x, BMap.get? t n = some x → x.md.kind = x.contents.kind

end Backpak.Spec
