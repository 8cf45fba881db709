import Verif.Spec.Walk

/-!
# What is in a file tree
-/

namespace Backpak.Spec

/-- Nothing but files, symlinks and directories. -/
def Plain : Dir Bytes → Prop
  | .nil => True
  | .leaf _ _ l r => l ≠ .other ∧ Plain r
  | .dir _ _ s r => Plain s ∧ Plain r

/-- These are the entries of a directory somewhere in the tree. -/
def SubDir (s : Dir Bytes) : Dir Bytes → Prop
  | .nil => False
  | .leaf _ _ _ r => SubDir s r
  | .dir _ _ s' r => s = s' ∨ SubDir s s' ∨ SubDir s r

/-- Some file in the tree has these bytes. -/
def HasFile (x : Bytes) : Dir Bytes → Prop
  | .nil => False
  | .leaf _ _ l r => l = .file x ∨ HasFile x r
  | .dir _ _ s r => HasFile x s ∨ HasFile x r

/-- An entry with a name, and what is in it, put in front of others; nothing if there is none. -/
def single (n : Name) : Option ((Meta × Option (Leaf Bytes)) × Dir Bytes) → Dir Bytes → Dir Bytes
  | none, rest => rest
  | some ((md, some l), _), rest => .leaf n md l rest
  | some ((md, none), sub), rest => .dir n md sub rest

/-- Several of them. -/
def listing (l : List (Name × Option ((Meta × Option (Leaf Bytes)) × Dir Bytes))) : Dir Bytes :=
  l.foldr (fun e rest => single e.1 e.2 rest) .nil

/-- Every entry's metadata is such. -/
def AllMeta (P : Meta → Prop) : Dir Bytes → Prop
  | .nil => True
  | .leaf _ md _ r => P md ∧ AllMeta P r
  | .dir _ md s r => P md ∧ AllMeta P s ∧ AllMeta P r

/-- Every entry has POSIX metadata. -/
abbrev AllPosix : Dir Bytes → Prop := AllMeta (fun md => ∃ m, md = .posix m)

/-- Times from 1970 on, or of whole seconds. -/
def Datable (md : Meta) : Prop := ∀ t, md.atime = some t ∨ md.mtime = some t → 0 ≤ t ∨ 10 ^ 9 ∣ t

variable {Id : Type}

/-- A tree and the directory it stands for, every subtree under its hash. -/
def ByHash (C : Codec Id) (PF : List Id → Bytes → Prop) : Tree Id → Dir Bytes → Prop :=
  DirRel PF (fun id t => id = C.hash (C.encTree t))

end Backpak.Spec
