import Verif.Model.Stat

/-!
# The text of listings (`src/ls.rs:21-35`)

A path's text is `pathString` (`Model/Stat`). `print!` and `println!` are modelled by the bytes they
write. Whether these can be written is not modelled (a closed standard output makes `print!` panic).
-/

namespace Backpak

variable {Id : Type}

/-- `has_trailing_slash` (`src/ls.rs:17-19`). -/
def hasTrailingSlash (p : Bytes) : Bool := p.getLast? = some 47

/-- `printer` (`src/ls.rs:21-35`). -/
def lineText (pre : Bytes) (e : Line Id) : Bytes :=
  pre ++ pathString e.1 ++
    (match e.2.contents with
      | .dir _ => if hasTrailingSlash (pathString e.1) then [] else [47]
      | .file _ => []
      | .link t => [32, 45, 62, 32] ++ t) ++ [10]

/-- What `ls` writes, given the nodes it visits (`print_tree`, `src/ls.rs:86-89`, with the empty
prefix, `src/ui/ls.rs:34`). -/
def lsText (L : List (Line Id)) : Bytes := L.flatMap (lineText [])

/-- The prefix of a line of `diff` (`src/ui/diff.rs:121,131,145-148,160-164`). The letters for metadata
are ASCII. -/
def Sign.text : Sign → Bytes
  | .plus => [43, 32]
  | .minus => [45, 32]
  | .changed => [67, 32]
  | .md c => [c.toNat.toUInt8, 32]

/-- What `diff` writes, given what it reports (`src/ui/diff.rs:114-169`). -/
def diffText (L : List (DiffLine Id)) : Bytes := L.flatMap (fun e => lineText e.1.text e.2)

/-- What `snapshots --stat` writes for a snapshot, after the snapshot itself, if it shows no sizes of files
(`src/ui/snapshots.rs:471-494,519-569`). The prefixes are those of `diff` after a space. -/
def statText (L : List (StatLine Id)) : Bytes := L.flatMap (fun l => 32 :: (l.about.1.text ++ (l.text ++ [10])))

end Backpak
