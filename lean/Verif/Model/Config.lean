import Verif.Model.Basic
import Verif.Model.Types
import Mathlib.Data.List.Sort

/-!
# Configuration (`src/config.rs`)
-/

namespace Backpak

/-- `config::Configuration` (`src/config.rs:17-51`), with its nested structures flattened. -/
structure Config where
  cacheSize : Nat
  skips : List Bytes
  dereference : Bool
  output : Option Bytes
deriving DecidableEq, Repr

namespace Config

/-- `Configuration::default` (`src/config.rs:43-52`). -/
def default : Config := ⟨2 ^ 30, [], false, none⟩

/-- What is found where a configuration file may be. Parsing TOML is not modelled: a file either is
a configuration or is not one. -/
inductive File
  | missing
  | unreadable
  | garbled
  | holds (c : Config)
deriving DecidableEq, Repr

/-- The result of reading one (`src/config.rs:75-81,96-104`): `none` if it is missing. -/
def File.read : File → Res (Option Config)
  | missing => .ok none
  | unreadable => .error (.err "Couldn't open")
  | garbled => .error (.err "Couldn't parse")
  | holds c => .ok (some c)

/-- `load` (`src/config.rs:54-94`). `arg` is the path given with `--config`, `files` what is at each
path, `home` the path of `~/.config/backpak.toml` if there is a home directory, and `here` what is at
`.backpak`. -/
def load (arg : Option Bytes) (home : Option Bytes) (files : Bytes → File) (here : File) : Res Config :=
  if arg = some [] then .ok default
  else
    match (match arg with
      | some p => some p
      | none => home) with
    | none => .error (.err "Can't find home directory")
    | some path =>
      match (files path).read with
      | .error e => .error e
      | .ok none => .ok default
      | .ok (some conf) =>
        match here.read with
        | .error e => .error e
        | .ok none => .ok conf
        | .ok (some lc) =>
          .ok { conf with
            skips := lc.skips
            output := match lc.output with
              | some o => some o
              | none => conf.output }

end Config

/-- `Vec::dedup`: drop elements equal to the one before. -/
def dedup : List Bytes → List Bytes
  | [] => []
  | [a] => [a]
  | a :: b :: rest => if a = b then dedup (b :: rest) else a :: dedup (b :: rest)

/-- `merge_skips` (`src/config.rs:106-122`). -/
def mergeSkips (config args : List Bytes) : List Bytes :=
  if config = [] then args
  else dedup (List.insertionSort (· ≤ ·) (config ++ args))

/-- `skip_matching_paths` (`src/filter.rs:5-10`): `matcher` gives for a regular expression the paths it
matches, if it is one. -/
def skipFilter (matcher : Bytes → Option (Bytes → Bool)) (skips : List Bytes) : Res (Bytes → Bool) :=
  match skips.mapM matcher with
  | none => .error (.err "Skip rules are not valid regex")
  | some ms => .ok (fun p => !ms.any (fun m => m p))

/-- Whether symlinks are followed (`src/ui/backup.rs:86-97`); the two flags exclude each other. -/
def follows (conf : Config) (dereference noDereference : Bool) : Bool :=
  if dereference then true
  else if noDereference then false
  else conf.dereference

/-- Where a restore goes (`src/ui/restore.rs:95`). -/
def outputOf (conf : Config) (arg : Option Bytes) : Option Bytes :=
  match arg with
  | some o => some o
  | none => conf.output

end Backpak
