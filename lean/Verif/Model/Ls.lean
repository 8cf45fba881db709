import Verif.Model.Source

/-!
# Listing trees (`src/ls.rs`)

What is printed is modelled as the list of paths and nodes printed. The text (`printer`,
`src/ls.rs:21-35`) is in `Model/Text`.
-/

namespace Backpak

variable {Id : Type} [LinearOrder Id]

/-- A printed line. -/
abbrev Line (Id : Type) := Path × Node Id

/-- What is below a node (`src/ls.rs:56-61`). `down` is the recursive call. -/
def walkBelow (down : Path → Id → Res (List (Line Id))) (path : Path) (x : Node Id) : Res (List (Line Id)) :=
  match x.contents with
  | .dir sub => down path sub
  | _ => .ok []

/-- The loop of `walk_tree` (`src/ls.rs:74-78`). `down` is the recursive call. -/
def walkNodes (down : Path → Id → Res (List (Line Id))) (path : Path) : Tree Id → Res (List (Line Id))
  | [] => .ok []
  | (n, x) :: rest =>
    match walkBelow down (path ++ [n]) x with
    | .error e => .error e
    | .ok l =>
      match walkNodes down path rest with
      | .error e => .error e
      | .ok l' => .ok ((path ++ [n], x) :: (l ++ l'))

/-- `walk_tree` (`src/ls.rs:65-79`). The number bounds the depth of recursion. -/
def walkTree (F : Forest Id) : Nat → Path → Id → Res (List (Line Id))
  | 0, _, _ => .error (.panic "stack overflow")
  | k + 1, path, id =>
    match F.get? id with
    | none => .error (.panic "Missing tree")
    | some t => walkNodes (walkTree F k) path t

/-- `walk_node` with `Recurse::Yes` (`src/ls.rs:50-62`). -/
def walkNode (F : Forest Id) (path : Path) (x : Node Id) : Res (List (Line Id)) :=
  match x.contents with
  | .dir sub =>
    match walkTree F (F.length + 1) path sub with
    | .error e => .error e
    | .ok l => .ok ((path, x) :: l)
  | _ => .ok [(path, x)]

/-- `ls` of a snapshot (`src/ui/ls.rs:19-38`), from opening the repository on. -/
def ls (C : Codec Id) (src : Source Id) (s : Snapshot Id) : Res (List (Line Id)) :=
  match forestFromRoot C src s.tree (newTreeCache C) with
  | .error e => .error e
  | .ok (F, _) => walkTree F (F.length + 1) [] s.tree

end Backpak
