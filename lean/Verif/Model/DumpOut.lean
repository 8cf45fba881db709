import Verif.Model.Dump
import Verif.Model.Text

/-!
# What `dump` writes (`src/ui/dump.rs`)

`Model/Dump` says what is printed; here it is bytes, and a file is written chunk by chunk, so that one that
cannot be read to its end is written in part. Whatever has been put into a `BufWriter` is written when it
is dropped (`std`), so also if a later chunk cannot be read. Whether the output can be opened and written to is
not modelled.
-/

namespace Backpak

variable {Id : Type} [LinearOrder Id]

/-- The line for an entry of a directory (`src/ui/dump.rs:109-126`). -/
def dirLine (path : Path) (e : Name × Node Id) : Bytes :=
  pathString path ++ [47] ++ e.1 ++
    (match e.2.contents with
      | .dir _ => [47]
      | .link t => [45, 62, 32] ++ t
      | .file _ => []) ++ [10]

/-- The bytes of what is printed (`dump_dir`, `dump_symlink`, `dump_file`, `src/ui/dump.rs:101-159`). -/
def Dumped.bytes : Dumped Id → Bytes
  | .dir path t => pathString path ++ [47, 10] ++ t.flatMap (dirLine path)
  | .link path target => pathString path ++ [32, 45, 62, 32] ++ target ++ [10]
  | .file x => x

/-- The loop of `dump_file` (`src/ui/dump.rs:153-157`): what has been written, and how it ended. -/
def fileWritten (H : Bytes → Id) (src : Source Id) (env : CacheEnv Id) : ReaderState Id → List Id → Bytes × Res Unit
  | _, [] => ([], .ok ())
  | s, c :: cs =>
    match readBlob H src env s c with
    | .error e => ([], .error e)
    | .ok (x, s') =>
      let r := fileWritten H src env s' cs
      (x ++ r.1, r.2)

/-- The loop of `run` (`src/ui/dump.rs:48-98`): what has been written each time the output was opened, and how
it ended. -/
def writtenFrom (C : Codec Id) (src : Source Id) (env : CacheEnv Id) :
    List Comp → Path → Id → Forest Id → List Bytes × Res Unit
  | [], _, _, _ => ([], .ok ())
  | .cur :: rest, path, id, cache => writtenFrom C src env rest path id cache
  | .other :: _, _, _, _ => ([], .error (.err "dump doesn't support absolute paths, .., etc."))
  | .normal n :: rest, path, id, cache =>
    match treeRead C src cache id with
    | .error e => ([], .error e)
    | .ok (t, cache') =>
      match BMap.get? t n with
      | none => ([], .error (.err "Couldn't find in the given snapshot"))
      | some ⟨.dir sub, _⟩ =>
        if rest.isEmpty then
          match treeRead C src cache' sub with
          | .error e => ([], .error e)
          | .ok (u, _) => ([(Dumped.dir (path ++ [n]) u).bytes], .ok ())
        else writtenFrom C src env rest (path ++ [n]) sub cache'
      | some ⟨.link target, _⟩ =>
        let r := writtenFrom C src env rest (path ++ [n]) id cache'
        ((Dumped.link (Id := Id) (path ++ [n]) target).bytes :: r.1, r.2)
      | some ⟨.file cs, _⟩ =>
        if rest.isEmpty then
          let r := fileWritten C.hash src env ReaderState.new cs
          ([r.1], r.2)
        else ([], .error (.err "is a file, not a directory"))

/-- `run` (`src/ui/dump.rs:28-99`), from opening the repository on. -/
def written (C : Codec Id) (src : Source Id) (env : CacheEnv Id) (s : Snapshot Id) (path : List Comp) :
    List Bytes × Res Unit :=
  writtenFrom C src env path [] s.tree (newTreeCache C)

/-- What comes out on standard output (`open_writer` without `--output` or with `-`, `src/ui/dump.rs:161-177`). -/
def onStdout (l : List Bytes) : Bytes := l.flatten

/-- What is in the file given with `--output`, if it held `old` before, or was not there: it is created, and emptied,
each time it is opened (`open_writer`, `src/ui/dump.rs:161-177`). -/
def inFile (old : Option Bytes) (l : List Bytes) : Option Bytes := l.foldl (fun _ x => some x) old

end Backpak
