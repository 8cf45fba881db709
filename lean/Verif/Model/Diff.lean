import Verif.Model.Ls

/-!
# Comparing trees (`src/diff.rs`, `src/ui/diff.rs`)
-/

namespace Backpak

variable {Id : Type} [LinearOrder Id]

/-- The calls of `diff::Callbacks` (`src/diff.rs:12-60`). The forests are left out: the first for
the old node and the second for the new one. -/
inductive Event (Id : Type)
  | added (path : Path) (new : Node Id)
  | removed (path : Path) (old : Node Id)
  | contents (path : Path) (old new : Node Id)
  | metadata (path : Path) (old new : Node Id)
  | same (path : Path) (node : Node Id)
  | retyped (path : Path) (old new : Node Id)
deriving DecidableEq, Repr

variable {S : Type}

/-- `compare_nodes` (`src/diff.rs:105-146`). `cb` is the callback, which works on a state and can
fail; `down` is the recursive call. -/
def compareNodes (cb : Event Id → S → Res S) (down : Path → Id → Id → S → Res S) (path : Path)
    (x y : Node Id) (s : S) : Res S :=
  match x.kind, y.kind with
  | .error e, _ => .error e
  | _, .error e => .error e
  | .ok _, .ok _ =>
    match x.contents, y.contents with
    | .dir a, .dir b =>
      match (if a = b then .ok s else down path a b s) with
      | .error e => .error e
      | .ok s' =>
        if x.md = y.md then
          if a = b then cb (.same path x) s' else .ok s'
        else cb (.metadata path x y) s'
    | .file cs, .file cs' =>
      if cs ≠ cs' then cb (.contents path x y) s
      else if x.md ≠ y.md then cb (.metadata path x y) s
      else cb (.same path y) s
    | .link tgt, .link tgt' =>
      if tgt ≠ tgt' then cb (.contents path x y) s
      else if x.md ≠ y.md then cb (.metadata path x y) s
      else cb (.same path y) s
    | _, _ => cb (.retyped path x y) s

/-- What is done for one name (`src/diff.rs:92-100`). -/
def compareName (cb : Event Id → S → Res S) (down : Path → Id → Id → S → Res S) (path : Path)
    (t1 t2 : Tree Id) (n : Name) (s : S) : Res S :=
  match BMap.get? t1 n, BMap.get? t2 n with
  | none, none => .error (.panic "internal error: entered unreachable code")
  | none, some y => cb (.added (path ++ [n]) y) s
  | some x, none => cb (.removed (path ++ [n]) x) s
  | some x, some y => compareNodes cb down (path ++ [n]) x y s

/-- The loop of `compare_trees` (`src/diff.rs:92-101`). -/
def compareNames (cb : Event Id → S → Res S) (down : Path → Id → Id → S → Res S) (path : Path)
    (t1 t2 : Tree Id) : List Name → S → Res S
  | [], s => .ok s
  | n :: rest, s =>
    match compareName cb down path t1 t2 n s with
    | .error e => .error e
    | .ok s' => compareNames cb down path t1 t2 rest s'

/-- `compare_trees` (`src/diff.rs:77-103`). The first number bounds the depth of recursion. -/
def compareTrees (cb : Event Id → S → Res S) (F1 F2 : Forest Id) : Nat → Path → Id → Id → S → Res S
  | 0, _, _, _, _ => .error (.panic "stack overflow")
  | k + 1, path, a, b, s =>
    match F1.get? a, F2.get? b with
    | none, _ => .error (.panic "Missing tree")
    | _, none => .error (.panic "Missing tree")
    | some t1, some t2 =>
      compareNames cb (compareTrees cb F1 F2 k) path t1 t2 (BSet.ofList (BMap.keys t1 ++ BMap.keys t2)) s

/-- The letter before a line: `+`, `-`, `C`, or a letter for metadata. -/
inductive Sign
  | plus
  | minus
  | changed
  | md (c : Char)
deriving DecidableEq, Repr

/-- `meta_diff_char` (`src/tree.rs:132-158`), for metadata that differs. -/
def metaDiffChar : Meta → Meta → Char
  | .posix l, .posix r =>
    if l.uid ≠ r.uid ∨ l.gid ≠ r.gid then 'O'
    else if l.mode ≠ r.mode then 'P'
    else if l.mtime ≠ r.mtime then 'T'
    else if l.atime ≠ r.atime then 'A'
    else 'M'
  | _, _ => 'M'

/-- `meta_diff_char` (`src/tree.rs:132-158`). Its caller unwraps the result (`src/ui/diff.rs:163-166`);
`compare_nodes` calls it only for metadata that differs (`src/diff.rs:115-117,134-136`). -/
def metaDiff? (l r : Meta) : Option Char := if l = r then none else some (metaDiffChar l r)

/-- What `diff` prints. -/
abbrev DiffLine (Id : Type) := Sign × Line Id

/-- `PrintDiffs::node_added` and `node_removed` (`src/ui/diff.rs:121-137`). -/
def printAll (F : Forest Id) (sg : Sign) (path : Path) (x : Node Id) : Res (List (DiffLine Id)) :=
  match walkNode F path x with
  | .error e => .error e
  | .ok l => .ok (l.map (fun e => (sg, e)))

/-- `PrintDiffs` (`src/ui/diff.rs:114-169`): the lines printed for an event. -/
def printEvent (withMeta : Bool) (F1 F2 : Forest Id) : Event Id → Res (List (DiffLine Id))
  | .added p y => printAll F2 .plus p y
  | .removed p x => printAll F1 .minus p x
  | .contents p x y =>
    match x.contents with
    | .link _ => .ok [(.minus, p, x), (.plus, p, y)]
    | _ => .ok [(.changed, p, x)]
  | .metadata p x y => .ok (if withMeta then [(.md (metaDiffChar x.md y.md), p, y)] else [])
  | .same _ _ => .ok []
  | .retyped p x y =>
    match printAll F1 .minus p x with
    | .error e => .error e
    | .ok l =>
      match printAll F2 .plus p y with
      | .error e => .error e
      | .ok l' => .ok (l ++ l')

/-- Printing after what has been printed. -/
def printer (withMeta : Bool) (F1 F2 : Forest Id) (e : Event Id) (out : List (DiffLine Id)) :
    Res (List (DiffLine Id)) :=
  match printEvent withMeta F1 F2 e with
  | .error e => .error e
  | .ok l => .ok (out ++ l)

/-- What comparing two forests prints (`src/ui/diff.rs:72-80`). -/
def diffForests (withMeta : Bool) (F1 F2 : Forest Id) (a b : Id) : Res (List (DiffLine Id)) :=
  compareTrees (printer withMeta F1 F2) F1 F2 (F1.length + 1) [] a b []

/-- `diff` of two snapshots (`src/ui/diff.rs:50-80`), from opening the repository on. -/
def diffSnapshots (C : Codec Id) (src : Source Id) (withMeta : Bool) (s1 s2 : Snapshot Id) :
    Res (List (DiffLine Id)) :=
  match forestFromRoot C src s1.tree (newTreeCache C) with
  | .error e => .error e
  | .ok (F1, cache) =>
    match forestFromRoot C src s2.tree cache with
    | .error e => .error e
    | .ok (F2, _) => diffForests withMeta F1 F2 s1.tree s2.tree

end Backpak
