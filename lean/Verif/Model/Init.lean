import Verif.Model.Basic

/-!
# Making and opening a repository (`src/ui/init.rs`, `src/backend.rs:34-95,378-432`,
`src/backend/fs.rs:11-73`, `src/backend/backblaze.rs:14-41`)

Not modelled: parsing of arguments and sizes, the trial run of a filter (`Model/Trial`),
logging in to B2, setting up the cache.
-/

namespace Backpak.Init

/-- `backend::Kind` (`src/backend.rs:36-48`). -/
inductive Kind
  | filesystem (forceCache : Bool)
  | backblaze (keyId applicationKey bucket : Bytes) (connections : Nat)
deriving DecidableEq, Repr

/-- `ConfigFile` (`src/backend.rs:50-61`). -/
structure ConfigFile where
  packSize : Nat
  kind : Kind
  filter : Option Bytes
  unfilter : Option Bytes
deriving DecidableEq, Repr

/-- `backend::Configuration` (`src/backend.rs:63-69`). -/
structure RepoConfig where
  packSize : Nat
  kind : Kind
  filter : Option (Bytes × Bytes)
deriving DecidableEq, Repr

/-- TOML, as far as it is relied on: what is written can be read, and an empty file does not say what
kind of backend it is for. -/
structure Toml where
  enc : ConfigFile → Bytes
  dec : Bytes → Option ConfigFile
  dec_enc : ∀ c, dec (enc c) = some c
  dec_nil : dec [] = none

/-- `read_config` (`src/backend.rs:71-85`), on what is in the file. -/
def readConfig (T : Toml) (text : Bytes) : Res RepoConfig :=
  match T.dec text with
  | none => .error (.err "Couldn't parse config")
  | some cf =>
    match cf.filter, cf.unfilter with
    | some f, some u => .ok ⟨cf.packSize, cf.kind, some (f, u)⟩
    | none, none => .ok ⟨cf.packSize, cf.kind, none⟩
    | _, _ => .error (.err "config should set `filter` and `unfilter` or neither")

/-- `write_config` (`src/backend.rs:87-100`): what it writes. -/
def writeConfig (T : Toml) (c : RepoConfig) : Bytes :=
  match c.filter with
  | some (f, u) => T.enc ⟨c.packSize, c.kind, some f, some u⟩
  | none => T.enc ⟨c.packSize, c.kind, none, none⟩

/-! ## A filesystem -/

/-- A path, by its components; the root is empty. -/
abbrev Place := List Bytes

inductive Node
  | dir
  | file (x : Bytes)
deriving DecidableEq, Repr

/-- What there is; of several entries for a path the first counts. -/
abbrev Fs := List (Place × Node)

def Fs.get (fs : Fs) (p : Place) : Option Node := if p = [] then some .dir else (fs.find? (fun e => e.1 = p)).map (·.2)

inductive Act
  /-- `fs::create_dir` -/
  | mkdir (p : Place)
  /-- opening with `create_new(true)` -/
  | create (p : Place)
  /-- `write_all` to a file that was opened -/
  | write (p : Place) (x : Bytes)
deriving DecidableEq, Repr

def act : Act → Fs → Option Fs
  | .mkdir p, fs => if fs.get p = none ∧ fs.get p.dropLast = some .dir then some ((p, .dir) :: fs) else none
  | .create p, fs => if fs.get p = none ∧ fs.get p.dropLast = some .dir then some ((p, .file []) :: fs) else none
  | .write p x, fs => some ((p, .file x) :: fs)

/-- Some steps, up to the first that fails; whether none did. -/
def run : List Act → Fs → Fs × Bool
  | [], fs => (fs, true)
  | a :: l, fs =>
    match act a fs with
    | none => (fs, false)
    | some fs' => run l fs'

/-- Nothing is in a directory. -/
def Fs.Empty (fs : Fs) (p : Place) : Prop := ∀ e ∈ fs, e.1 = [] ∨ e.1.dropLast ≠ p

instance (fs : Fs) (p : Place) : Decidable (fs.Empty p) := by unfold Fs.Empty; infer_instance

def nPacks : Bytes := ascii "packs"
def nIndexes : Bytes := ascii "indexes"
def nSnapshots : Bytes := ascii "snapshots"
def nConfig : Bytes := ascii "config.toml"

/-- The steps after there is a directory (`src/backend/fs.rs:43-59`). -/
def fill (T : Toml) (repo : Place) (c : RepoConfig) : List Act :=
  [.mkdir (repo ++ [nPacks]), .mkdir (repo ++ [nIndexes]), .mkdir (repo ++ [nSnapshots]),
   .create (repo ++ [nConfig]), .write (repo ++ [nConfig]) (writeConfig T c)]

/-- `init::run` (`src/ui/init.rs:50-83`): what is to be done, if anything
(`fs::initialize`, `src/backend/fs.rs:25-60`; `backblaze::initialize`, `src/backend/backblaze.rs:14-41`). -/
def init (T : Toml) (repo : Place) (c : RepoConfig) (fs : Fs) : Res (List Act) :=
  match c.kind with
  | .filesystem _ =>
    match fs.get repo with
    | none => .ok (.mkdir repo :: fill T repo c)
    | some (.file _) => .error (.err "Couldn't read")
    | some .dir => if fs.Empty repo then .ok (fill T repo c) else .error (.err "already exists and isn't empty")
  | .backblaze .. => .ok [.create repo, .write repo (writeConfig T c)]

/-! ## Opening -/

/-- What is between the program and the storage (`CachedBackendKind`, `src/backend.rs:137-160`). -/
structure Layers where
  cached : Bool
  filter : Option (Bytes × Bytes)
  raw : Kind
deriving DecidableEq, Repr

/-- The choice of layers (`src/backend.rs:395-428`). -/
def layers (c : RepoConfig) : Layers :=
  match c.kind, c.filter with
  | .filesystem false, none => ⟨false, none, .filesystem false⟩
  | k, f => ⟨true, f, k⟩

/-- `FilesystemBackend::open` (`src/backend/fs.rs:63-71`). -/
def openFs (fs : Fs) (repo : Place) : Res Unit :=
  if fs.get repo = none then .error (.err "doesn't exist")
  else if fs.get (repo ++ [nPacks]) = none then .error (.err "doesn't exist")
  else if fs.get (repo ++ [nIndexes]) = none then .error (.err "doesn't exist")
  else if fs.get (repo ++ [nSnapshots]) = none then .error (.err "doesn't exist")
  else .ok ()

/-- `backend::open` (`src/backend.rs:378-432`). -/
def openRepo (T : Toml) (fs : Fs) (repo : Place) : Res (RepoConfig × Layers) :=
  let conf : Res RepoConfig :=
    match fs.get repo with
    | none => .error (.err "Couldn't stat")
    | some .dir =>
      match fs.get (repo ++ [nConfig]) with
      | some (.file x) => readConfig T x
      | _ => .error (.err "Couldn't read config")
    | some (.file x) => readConfig T x
  match conf with
  | .error e => .error e
  | .ok c =>
    match c.kind with
    | .filesystem _ =>
      match openFs fs repo with
      | .error e => .error e
      | .ok () => .ok (c, layers c)
    | .backblaze .. => .ok (c, layers c)

end Backpak.Init
