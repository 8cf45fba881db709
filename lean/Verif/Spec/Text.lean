import Verif.Spec.Path

/-!
# What a reader of a listing is to learn
-/

namespace Backpak.Spec

/-- What kind of thing there is at a path, and where a symlink leads. -/
inductive Told
  | dir
  | file
  | link (target : Bytes)
deriving DecidableEq, Repr

def Told.ofContents {Id : Type} : Contents Id → Told
  | .dir _ => .dir
  | .file _ => .file
  | .link t => .link t

/-- (What is neither a file nor a symlink nor a directory is in no snapshot.) -/
def Told.ofEntry {F : Type} : Meta × Option (Leaf F) → Option Told
  | (_, none) => some .dir
  | (_, some (.file _)) => some .file
  | (_, some (.link t)) => some (.link t)
  | (_, some .other) => none

/-- The arrow between a symlink and its target: a space, `->` and a space. -/
def arrow : Bytes := [32, 45, 62, 32]

/-- A name that cannot be mistaken: not empty, without separators and newlines, and without an arrow
(so that no arrow arises when an arrow is put after it, it may not end in a space and `->` either). -/
structure PlainName (n : Name) : Prop where
  ne : n ≠ []
  slash : 47 ∉ n
  newline : 10 ∉ n
  arrow : ¬ arrow <:+: n ++ [32]

/-- A directory in which all names can be told, and no symlink's target has a newline. -/
structure PlainDir {F : Type} (d : Dir F) : Prop where
  names : ∀ p e, entry d p = some e → ∀ n ∈ p, PlainName n
  targets : ∀ p e t, entry d p = some e → Told.ofEntry e = some (.link t) → 10 ∉ t

end Backpak.Spec
