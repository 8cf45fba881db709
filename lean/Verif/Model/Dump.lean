import Verif.Model.ChunkCache

/-!
# Printing one entry (`src/ui/dump.rs`)
-/

namespace Backpak

variable {Id : Type} [LinearOrder Id]

/-- A component of the path given (`Utf8Component`): `.`, a name, or something else (a root, a
prefix or `..`). `Path::components` leaves `.` only at the start. -/
inductive Comp
  | cur
  | normal (n : Name)
  | other
deriving DecidableEq, Repr

/-- What is printed: a directory's path and nodes (`dump_dir`, `src/ui/dump.rs:101-130`), a symlink's
path and target (`dump_symlink`, `src/ui/dump.rs:132-141`), or a file's bytes (`dump_file`,
`src/ui/dump.rs:143-159`). Without `--output` they are printed one after another; with it, each
replaces the last (`open_writer`, `src/ui/dump.rs:161-177`). -/
inductive Dumped (Id : Type)
  | dir (path : Path) (t : Tree Id)
  | link (path : Path) (target : Bytes)
  | file (data : Bytes)
deriving DecidableEq, Repr

/-- The loop of `run` (`src/ui/dump.rs:48-98`): what has been printed, and how it ended. A file
whose chunks cannot all be read may be printed in part, which is represented in `Model/DumpOut`. -/
def dumpFrom (C : Codec Id) (src : Source Id) (env : CacheEnv Id) :
    List Comp → Path → Id → Forest Id → List (Dumped Id) × Res Unit
  | [], _, _, _ => ([], .ok ())
  | .cur :: rest, path, id, cache => dumpFrom C src env rest path id cache
  | .other :: _, _, _, _ => ([], .error (.err "dump doesn't support absolute paths, .., etc."))
  | .normal n :: rest, path, id, cache =>
    match treeRead C src cache id with
    | .error e => ([], .error e)
    | .ok (t, cache') =>
      match BMap.get? t n with
      | none => ([], .error (.err "Couldn't find in the given snapshot"))
      | some ⟨.dir sub, _⟩ =>
        if rest.isEmpty then
          match treeRead C src cache' sub with
          | .error e => ([], .error e)
          | .ok (u, _) => ([.dir (path ++ [n]) u], .ok ())
        else dumpFrom C src env rest (path ++ [n]) sub cache'
      | some ⟨.link target, _⟩ =>
        let r := dumpFrom C src env rest (path ++ [n]) id cache'
        (.link (path ++ [n]) target :: r.1, r.2)
      | some ⟨.file cs, _⟩ =>
        if rest.isEmpty then
          match readBlobs C.hash src env ReaderState.new cs with
          | .error e => ([], .error e)
          | .ok (parts, _) => ([.file parts.flatten], .ok ())
        else ([], .error (.err "is a file, not a directory"))

/-- `dump` of a path in a snapshot (`src/ui/dump.rs:28-99`), from opening the repository on. -/
def dump (C : Codec Id) (src : Source Id) (env : CacheEnv Id) (s : Snapshot Id) (path : List Comp) :
    List (Dumped Id) × Res Unit :=
  dumpFrom C src env path [] s.tree (newTreeCache C)

end Backpak
