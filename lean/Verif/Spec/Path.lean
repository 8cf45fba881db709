import Verif.Spec.Repo

/-!
# What is at a path

In a file tree, and in a tree whose subtrees are found in a forest.
-/

namespace Backpak.Spec

/-- The entry with a given name in a directory: its metadata and what it is (`none` for a
directory), and what is in it if it is a directory. -/
def child {F : Type} : Dir F → Name → Option ((Meta × Option (Leaf F)) × Dir F)
  | .nil, _ => none
  | .leaf n md l rest, m => if m = n then some ((md, some l), .nil) else child rest m
  | .dir n md sub rest, m => if m = n then some ((md, none), sub) else child rest m

/-- The entry at a path below a directory. -/
def entry {F : Type} : Dir F → Path → Option (Meta × Option (Leaf F))
  | _, [] => none
  | d, [n] => (child d n).map Prod.fst
  | d, n :: p =>
    match child d n with
    | some ((_, none), sub) => entry sub p
    | _ => none

variable {Id : Type} [LinearOrder Id]

/-- The node at a path below a tree. -/
def nodeAt (F : Forest Id) : Id → Path → Option (Node Id)
  | _, [] => none
  | id, [n] => (F.get? id).bind (fun t => BMap.get? t n)
  | id, n :: p =>
    match (F.get? id).bind (fun t => BMap.get? t n) with
    | some ⟨.dir sub, _⟩ => nodeAt F sub p
    | _ => none

/-- A node says the same as an entry, given what lists of chunks stand for. -/
def NodeIs (PF : List Id → Bytes → Prop) : Node Id → Meta × Option (Leaf Bytes) → Prop
  | ⟨.file cs, md⟩, (md', some (.file x)) => md = md' ∧ PF cs x
  | ⟨.link tgt, md⟩, (md', some (.link tgt')) => md = md' ∧ tgt = tgt'
  | ⟨.dir _, md⟩, (md', none) => md = md'
  | _, _ => False

end Backpak.Spec
