import Verif.Model.Diff
import Verif.Model.Sizes

/-!
# The `snapshots` command (`src/ui/snapshots.rs`)

What is printed is modelled as data: snapshots, their sizes, and lines with their text. How numbers of bytes
are written (`nice_size`) is left out.
-/

namespace Backpak

/-- Counting grapheme clusters (`unicode_segmentation`): putting texts together makes no more of them, and
`/` and ` -> ` have one for each character. -/
structure Graphemes where
  count : Bytes → Nat
  append : ∀ a b, count (a ++ b) ≤ count a + count b
  slash : count [0x2f] = 1
  arrow : count (ascii " -> ") = 4
  pos : ∀ a, a ≠ [] → 0 < count a

/-- `Utf8PathBuf::push` on Unix. -/
def pushPath (buf c : Bytes) : Bytes :=
  if c.head? = some 0x2f then c
  else if buf ≠ [] ∧ buf.getLast? ≠ some 0x2f then buf ++ 0x2f :: c
  else buf ++ c

/-- The text of a path put together name by name (`src/diff.rs:93-94`, `src/ls.rs:75-76`). -/
def pathString (p : Path) : Bytes := p.foldl pushPath []

variable {Id : Type} [LinearOrder Id]

/-- What is printed for a node (`src/ui/snapshots.rs:473-485`). -/
def lineString (path : Path) (x : Node Id) : Bytes :=
  match x.contents with
  | .dir _ => if (pathString path).getLast? = some 0x2f then pathString path else pathString path ++ [0x2f]
  | .file _ => pathString path
  | .link tgt => pathString path ++ (ascii " -> " ++ tgt)

/-- `path_length` (`src/ui/snapshots.rs:371-386`). -/
def pathLength (g : Graphemes) (path : Path) (x : Node Id) : Nat :=
  match x.contents with
  | .dir _ => if (pathString path).getLast? = some 0x2f then g.count (pathString path) else g.count (pathString path) + 1
  | .file _ => g.count (pathString path)
  | .link tgt => g.count (pathString path) + 4 + g.count tgt

/-- `PadMeasure::measure_node` (`src/ui/snapshots.rs:389-393`), for the nodes walked. -/
def measureLines (g : Graphemes) (l : List (Line Id)) (longest : Nat) : Nat :=
  l.foldl (fun n e => max n (pathLength g e.1 e.2)) longest

/-- `measure_node` with `Recurse::Yes`. -/
def measureAll (g : Graphemes) (F : Forest Id) (path : Path) (x : Node Id) (longest : Nat) : Res Nat :=
  match walkNode F path x with
  | .error e => .error e
  | .ok l => .ok (measureLines g l longest)

/-- `PadMeasure` (`src/ui/snapshots.rs:396-448`). -/
def measureEvent (g : Graphemes) (withMeta : Bool) (F1 F2 : Forest Id) (e : Event Id) (longest : Nat) : Res Nat :=
  match e with
  | .added p y => measureAll g F2 p y longest
  | .removed p x => measureAll g F1 p x longest
  | .contents p x y =>
    match x.contents with
    | .link _ => .ok (measureLines g [(p, x), (p, y)] longest)
    | _ => .ok (measureLines g [(p, x)] longest)
  | .metadata p _ y => .ok (if withMeta then measureLines g [(p, y)] longest else longest)
  | .same _ _ => .ok longest
  | .retyped p x y =>
    match measureAll g F1 p x longest with
    | .error e => .error e
    | .ok n => measureAll g F2 p y n

/-- `measure_path_pad` (`src/ui/snapshots.rs:352-363`). -/
def measurePad (g : Graphemes) (withMeta : Bool) (F1 F2 : Forest Id) (a b : Id) : Res Nat :=
  compareTrees (measureEvent g withMeta F1 F2) F1 F2 (F1.length + 1) [] a b 0

/-- A line of `--stat`: what it is about, its text, and the sizes after it. -/
structure StatLine (Id : Type) where
  about : DiffLine Id
  text : Bytes
  size : Option (Nat × Nat)
deriving DecidableEq, Repr

/-- The sizes of files by path (`src/ui/snapshots.rs:262-266`). The last of equal paths would win; there are
none. -/
abbrev FileSizes := List (Path × (Nat × Nat))

/-- `sizes.get(path)` (`src/ui/snapshots.rs:500`). -/
def FileSizes.at (zs : FileSizes) (p : Path) : Option (Nat × Nat) := (zs.find? (fun e => e.1 = p)).map Prod.snd

/-- `PrintDiffs::printer` (`src/ui/snapshots.rs:471-511`). -/
def statLine (g : Graphemes) (pad : Nat) (sizes : Option FileSizes) (l : DiffLine Id) : Res (StatLine Id) :=
  let t := lineString l.2.1 l.2.2
  if pad = 0 then
    match sizes with
    | none => .ok ⟨l, t, none⟩
    | some _ => .error (.panic "assertion failed: self.sizes.is_none()")
  else
    match sizes with
    | none => .error (.panic "called `Option::unwrap()` on a `None` value")
    | some zs =>
      if g.count t ≤ pad then .ok ⟨l, t ++ List.replicate (pad - g.count t) 32, zs.at l.2.1⟩
      else .error (.panic "assertion failed: plen <= self.pad")

/-- Do something for each of a list, stopping at the first failure. -/
def eachRes {A B : Type} (f : A → Res B) : List A → Res (List B)
  | [] => .ok []
  | a :: l =>
    match f a with
    | .error e => .error e
    | .ok b =>
      match eachRes f l with
      | .error e => .error e
      | .ok bs => .ok (b :: bs)

/-- `PrintDiffs` (`src/ui/snapshots.rs:519-569`): the same lines as `diff` prints, each through `printer`. -/
def statPrinter (g : Graphemes) (withMeta : Bool) (F1 F2 : Forest Id) (pad : Nat) (sizes : Option FileSizes)
    (e : Event Id) (out : List (StatLine Id)) : Res (List (StatLine Id)) :=
  match printEvent withMeta F1 F2 e with
  | .error e => .error e
  | .ok l =>
    match eachRes (statLine g pad sizes) l with
    | .error e => .error e
    | .ok l' => .ok (out ++ l')

/-- `tree_diff` (`src/ui/snapshots.rs:451-464`). -/
def treeDiff (g : Graphemes) (withMeta : Bool) (F1 F2 : Forest Id) (a b : Id) (pad : Nat) (sizes : Option FileSizes) :
    Res (List (StatLine Id)) :=
  compareTrees (statPrinter g withMeta F1 F2 pad sizes) F1 F2 (F1.length + 1) [] a b []

/-- `null_forest` (`src/diff.rs:64-74`). -/
def nullForest (C : Codec Id) : Id × Forest Id := (C.emptyId, [(C.emptyId, [])])

/-- What is printed for a snapshot: itself, its sizes, how it differs from the one before, and the files that
brought new data. -/
structure Shown (Id : Type) where
  snap : Snap Id
  sizes : Option Sizes := none
  lines : List (StatLine Id) := []
  files : FileSizes := []
deriving DecidableEq, Repr

/-- The next snapshot is wanted, so that this one's forest is needed (`src/ui/snapshots.rs:119-125`). -/
def nextWanted (wanted : Id → Bool) : List (Snap Id) → Bool
  | [] => false
  | s :: _ => wanted s.2

/-- Load the forests that are needed, those of the snapshots to print and of those just before them
(`src/ui/snapshots.rs:117-142`). The map by index is a list with gaps. -/
def loadNeeded (C : Codec Id) (src : Source Id) (wanted : Id → Bool) : List (Snap Id) → Forest Id →
    Res (List (Option (Forest Id)))
  | [], _ => .ok []
  | s :: rest, cache =>
    if wanted s.2 || nextWanted wanted rest then
      match forestFromRoot C src s.1.tree cache with
      | .error e => .error e
      | .ok (F, cache') =>
        match loadNeeded C src wanted rest cache' with
        | .error e => .error e
        | .ok l => .ok (some F :: l)
    else
      match loadNeeded C src wanted rest cache with
      | .error e => .error e
      | .ok l => .ok (none :: l)

/-- What a snapshot is compared to: the one before, or nothing (`src/ui/snapshots.rs:112,156,246-253`). -/
def previous (C : Codec Id) (all : List (Snap Id × Option (Forest Id))) : Nat → Option (Id × Forest Id)
  | 0 => some (nullForest C)
  | i + 1 =>
    match all[i]? with
    | some (s, some F) => some (s.1.tree, F)
    | _ => none

/-- One turn of the loop that prints (`src/ui/snapshots.rs:153-172`). -/
def statOne (g : Graphemes) (C : Codec Id) (withMeta : Bool) (all : List (Snap Id × Option (Forest Id))) (i : Nat) :
    Res (Shown Id) :=
  match previous C all i, all[i]? with
  | some (r, F1), some (s, some F2) =>
    match treeDiff g withMeta F1 F2 r s.1.tree 0 none with
    | .error e => .error e
    | .ok l => .ok { snap := s, lines := l }
  | _, _ => .error (.panic "no entry found for key")

/-- The positions of the snapshots to print, in the order they are printed in
(`src/ui/snapshots.rs:147-154,225-243`). -/
def positions (wanted : Id → Bool) (reverse : Bool) (snaps : List (Snap Id)) : List Nat :=
  let l := (List.range snaps.length).filter (fun i => (snaps[i]?.map (fun s => wanted s.2)).getD false)
  if reverse then l.reverse else l

/-- `snapshots --stat` (`src/ui/snapshots.rs:99-173`). -/
def showStat (g : Graphemes) (C : Codec Id) (src : Source Id) (withMeta reverse : Bool) (wanted : Id → Bool)
    (snaps : List (Snap Id)) : Res (List (Shown Id)) :=
  match loadNeeded C src wanted snaps (newTreeCache C) with
  | .error e => .error e
  | .ok fs => eachRes (statOne g C withMeta (snaps.zip fs)) (positions wanted reverse snaps)

/-- All snapshots with their forests and sizes (`src/ui/snapshots.rs:201-222`). -/
def decorate (C : Codec Id) (src : Source Id) (sm : BMap Id Nat) :
    List (Snap Id) → Forest Id → BSet Id → Res (List (Forest Id × Sizes))
  | [], _, _ => .ok []
  | s :: rest, cache, v =>
    match forestFromRoot C src s.1.tree cache with
    | .error e => .error e
    | .ok (F, cache') =>
      match forestSizes s.1.tree F sm v with
      | .error e => .error e
      | .ok (v', z) =>
        match decorate C src sm rest cache' v' with
        | .error e => .error e
        | .ok l => .ok ((F, z) :: l)

/-- The files that brought new data, most first (`src/ui/snapshots.rs:290-320`): sorted by what they brought,
stably, then reversed. -/
def filesShown (z : Sizes) : FileSizes :=
  ((z.perFile.filter (fun e => 0 < e.2.1)).insertionSort (fun a b => a.2.1 ≤ b.2.1)).reverse

/-- One turn of the loop that prints with sizes (`src/ui/snapshots.rs:234-325`). -/
def sizesOne (g : Graphemes) (C : Codec Id) (stat fileSizes withMeta : Bool)
    (all : List (Snap Id × (Forest Id × Sizes))) (i : Nat) : Res (Shown Id) :=
  match previous C (all.map (fun e => (e.1, some e.2.1))) i, all[i]? with
  | some (r, F1), some (s, F2, z) =>
    if stat then
      if fileSizes then
        match measurePad g withMeta F1 F2 r s.1.tree with
        | .error e => .error e
        | .ok pad =>
          match treeDiff g withMeta F1 F2 r s.1.tree pad (some z.perFile) with
          | .error e => .error e
          | .ok l => .ok { snap := s, sizes := some z, lines := l }
      else
        match treeDiff g withMeta F1 F2 r s.1.tree 0 none with
        | .error e => .error e
        | .ok l => .ok { snap := s, sizes := some z, lines := l }
    else .ok { snap := s, sizes := some z, files := if fileSizes then filesShown z else [] }
  | _, _ => .error (.panic "index out of bounds")

/-- `snapshots --sizes` and `--file-sizes`, with or without `--stat` (`src/ui/snapshots.rs:176-326`). -/
def showSizes (g : Graphemes) (C : Codec Id) (src : Source Id) (stat fileSizes withMeta reverse : Bool)
    (wanted : Id → Bool) (snaps : List (Snap Id)) : Res (List (Shown Id)) :=
  match Index.blobToSize src.index with
  | .error e => .error e
  | .ok sm =>
    match decorate C src sm snaps (newTreeCache C) [] with
    | .error e => .error e
    | .ok ds => eachRes (sizesOne g C stat fileSizes withMeta (snaps.zip ds)) (positions wanted reverse snaps)

/-- The arguments (`src/ui/snapshots.rs:20-60`). -/
structure ShowArgs where
  reverse : Bool := false
  stat : Bool := false
  withMeta : Bool := false
  sizes : Bool := false
  fileSizes : Bool := false
  names : List Bytes := []

/-- `snapshots` (`src/ui/snapshots.rs:62-328`), from loading the snapshots on; the repository's index is only
opened if it is needed. -/
def showSnapshots (g : Graphemes) (C : Codec ObjectId) (src : Source ObjectId) (a : ShowArgs)
    (snaps : List (Snap ObjectId)) : Res (List (Shown ObjectId)) :=
  match fromArgsList snaps a.names with
  | .error e => .error e
  | .ok sal =>
    let chosen := if sal.isEmpty then snaps else sal
    let wanted : ObjectId → Bool := fun id => decide (id ∈ chosen.map Prod.snd)
    if a.sizes || a.fileSizes then showSizes g C src a.stat a.fileSizes a.withMeta a.reverse wanted snaps
    else if a.stat then showStat g C src a.withMeta a.reverse wanted snaps
    else .ok ((if a.reverse then chosen.reverse else chosen).map (fun s => { snap := s }))

end Backpak
