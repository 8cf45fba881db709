import Verif.Model.Types

/-!
# File trees

What a filesystem (or a snapshot) holds, independent of how it is stored. A directory is its
entries in order; subdirectories are nested.
-/

namespace Backpak

/-- An entry that is not a directory. `F` is what a file holds: its bytes, or IDs of chunks.
`other` is a device, socket or the like, which only a filesystem has. -/
inductive Leaf (F : Type)
  | file (f : F)
  | link (target : Bytes)
  | other
deriving DecidableEq, Repr

/-- The entries of a directory. -/
inductive Dir (F : Type)
  | nil
  | leaf (name : Name) (md : Meta) (l : Leaf F) (rest : Dir F)
  | dir (name : Name) (md : Meta) (sub : Dir F) (rest : Dir F)
deriving DecidableEq, Repr

namespace Dir

variable {F : Type}

/-- The names in a directory, in order. -/
def names : Dir F → List Name
  | nil => []
  | leaf n _ _ r => n :: names r
  | dir n _ _ r => n :: names r

/-- One directory's entries after another's. -/
def append : Dir F → Dir F → Dir F
  | nil, d => d
  | leaf n md l r, d => leaf n md l (append r d)
  | dir n md s r, d => dir n md s (append r d)

/-- Put a leaf in its place by name, replacing what was there. -/
def putLeaf (n : Name) (md : Meta) (l : Leaf F) : Dir F → Dir F
  | nil => leaf n md l nil
  | leaf n' md' l' r =>
    if n < n' then leaf n md l (leaf n' md' l' r)
    else if n = n' then leaf n md l r
    else leaf n' md' l' (putLeaf n md l r)
  | dir n' md' s r =>
    if n < n' then leaf n md l (dir n' md' s r)
    else if n = n' then leaf n md l r
    else dir n' md' s (putLeaf n md l r)

/-- Put a subdirectory in its place by name, replacing what was there. -/
def putDir (n : Name) (md : Meta) (d : Dir F) : Dir F → Dir F
  | nil => dir n md d nil
  | leaf n' md' l' r =>
    if n < n' then dir n md d (leaf n' md' l' r)
    else if n = n' then dir n md d r
    else leaf n' md' l' (putDir n md d r)
  | dir n' md' s r =>
    if n < n' then dir n md d (dir n' md' s r)
    else if n = n' then dir n md d r
    else dir n' md' s (putDir n md d r)

/-- Names strictly ascending, here and in every subdirectory. -/
def Sorted : Dir F → Prop
  | nil => True
  | leaf n _ _ r => (∀ m ∈ names r, n < m) ∧ Sorted r
  | dir n _ s r => (∀ m ∈ names r, n < m) ∧ Sorted s ∧ Sorted r

/-- Every entry's metadata says what the entry is (`tree::get_metadata` and the directory
listing agree). -/
def KindsOk : Dir F → Prop
  | nil => True
  | leaf _ md (.file _) r => md.kind = .file ∧ KindsOk r
  | leaf _ md (.link _) r => md.kind = .link ∧ KindsOk r
  | leaf _ md .other r => (∃ b, md.kind = .unsupported b) ∧ KindsOk r
  | dir _ md s r => md.kind = .dir ∧ KindsOk s ∧ KindsOk r

end Dir
end Backpak
