import Verif.Spec.Repo

/-!
# The trees of a filtered snapshot

What a snapshot's trees become when some paths are left out, as blobs: needed to say which blobs
take part when a snapshot is copied or filtered, so that none have the same ID by accident.
-/

namespace Backpak.Spec

variable {Id : Type} [LinearOrder Id]

/-- The nodes that are kept, with the new IDs of subtrees, and the blobs of those. `down` gives
these for a subtree. -/
def filterNodes (filter : Path → Bool) (down : Path → Id → Id × List (Blob Id)) (path : Path) :
    Tree Id → Tree Id × List (Blob Id)
  | [] => ([], [])
  | (n, x) :: rest =>
    let r := filterNodes filter down path rest
    if filter (path ++ [n]) = false then r
    else
      match x.contents with
      | .dir sub =>
        let d := down (path ++ [n]) sub
        ((n, ⟨.dir d.1, x.md⟩) :: r.1, d.2 ++ r.2)
      | _ => ((n, x) :: r.1, r.2)

/-- The new ID of a tree and the blobs of it and of those below, to a given depth. -/
def filterTree (C : Codec Id) (filter : Path → Bool) (F : Forest Id) :
    Nat → Path → Id → Id × List (Blob Id)
  | 0, _, id => (id, [])
  | k + 1, path, id =>
    match F.get? id with
    | none => (id, [])
    | some t =>
      let r := filterNodes filter (filterTree C filter F k) path t
      (C.hash (C.encTree r.1), r.2 ++ [⟨C.encTree r.1, C.hash (C.encTree r.1), .tree⟩])

end Backpak.Spec
