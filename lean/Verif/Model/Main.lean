import Verif.Model.Config
import Verif.Model.Json

/-!
# The program around the commands (`src/main.rs`, `src/counters.rs`, `fatal` in `src/lib.rs`)

What the program does before and after a command: it sets up where messages go, reads the configuration,
changes to the directory given with `-C`, runs the command, and writes down how often it did what. A
command is whatever it does, given its configuration, the directory that it runs in and its arguments.
Reading the arguments (`clap`) is not modelled, nor are the forms of the messages on the standard error:
colours, times, names of modules and, with `-vvv`, the ends of spans.
-/

namespace Backpak.Main

/-- `Command` (`src/main.rs:49-69`), without the arguments of each. -/
inductive Command
  | init | backup | cat | check | copy | diff | dump | filterSnapshot | forget | ls | prune | restore | snapshots
  | rebuildIndex | usage
deriving DecidableEq, Repr

/-- `tracing::Level`. -/
inductive Level
  | trace | debug | info | warn | error
deriving DecidableEq, Repr

/-- How grave a level is. -/
def Level.gravity : Level → Nat
  | trace => 0
  | debug => 1
  | info => 2
  | warn => 3
  | error => 4

/-- What a command says: something that it prints (`print!`, `println!`, writes to `io::stdout()`), or a
message (`info!` and so on). -/
inductive Event
  | printed (b : Bytes)
  | said (l : Level) (b : Bytes)
deriving DecidableEq, Repr

/-- The part of `Args` that is for all commands (`src/main.rs:11-40`), without colours and time stamps. -/
structure Args where
  verbose : Nat
  config : Option Bytes
  dir : Option Bytes
  repository : Bytes
  command : Command
deriving DecidableEq, Repr

/-- `LogMode::Quiet` (`src/main.rs:77-80`). -/
def quiet : Command → Bool
  | .cat | .diff | .dump | .ls => true
  | _ => false

/-- The level from which messages go to the standard error (`src/main.rs:122-127`). -/
def least : Nat → Level
  | 0 => .warn
  | 1 => .info
  | 2 => .debug
  | _ => .trace

/-- What an event puts on the standard output: `INFO` messages, each on a line, are there unless the
command is a quiet one (`src/main.rs:155-171`). -/
def Event.toStdout (q : Bool) : Event → Bytes
  | printed b => b
  | said l b => if l = .info ∧ q = false then b ++ [10] else []

/-- A line on the standard error: a message, or what a panic says. -/
inductive Line
  | message (l : Level) (b : Bytes)
  | panicked (tag : String)
deriving DecidableEq, Repr

/-- What an event puts on the standard error (`src/main.rs:137-139`). -/
def Event.toStderr (v : Nat) : Event → List Line
  | printed _ => []
  | said l b => if (least v).gravity ≤ l.gravity then [.message l b] else []

/-- `counters::Op` (`src/counters.rs:11-27`). -/
inductive Op
  | snapshotLoad | indexLoad | backendRead | backendWrite | backendDelete | backendCacheHit | backendCacheSpill
  | fileToBuffer | fileToMmap | treeCacheHit | treeCacheMiss | chunkCacheHit | chunkCacheMiss | packRereads
deriving DecidableEq, Repr

/-- All of them, in order (`EnumMap` goes through them in this order). -/
def Op.all : List Op :=
  [.snapshotLoad, .indexLoad, .backendRead, .backendWrite, .backendDelete, .backendCacheHit, .backendCacheSpill,
    .fileToBuffer, .fileToMmap, .treeCacheHit, .treeCacheMiss, .chunkCacheHit, .chunkCacheMiss, .packRereads]

/-- `opname` (`src/counters.rs:57-72`). -/
def Op.name : Op → Bytes
  | snapshotLoad => ascii "snapshots loaded"
  | indexLoad => ascii "indexes loaded"
  | backendRead => ascii "backend reads"
  | backendWrite => ascii "backend writes"
  | backendDelete => ascii "backend delete (and cache evictions)"
  | backendCacheHit => ascii "backend cache hits"
  | backendCacheSpill => ascii "backend cache spills"
  | fileToBuffer => ascii "input files buffered"
  | fileToMmap => ascii "input files memory mapped"
  | treeCacheHit => ascii "tree cache hits"
  | treeCacheMiss => ascii "tree cache misses"
  | chunkCacheHit => ascii "chunk cache hits"
  | chunkCacheMiss => ascii "chunk cache misses"
  | packRereads => ascii "packs reread"

/-- The counters: numbers of 64 bits. -/
abbrev Counters := Op → Nat

/-- `add` (`src/counters.rs:36-38`); `fetch_add` wraps around. -/
def Counters.add (c : Counters) (b : Op × Nat) : Counters :=
  fun o => if o = b.1 then (c o + b.2) % 2 ^ 64 else c o

/-- The counters after some calls of `add`, in the order in which they came about. -/
def Counters.after (bumps : List (Op × Nat)) : Counters := bumps.foldl Counters.add (fun _ => 0)

/-- `{:6} {}`: a number, put to the right of six places, and a name. -/
def countLine (n : Nat) (o : Op) : Bytes :=
  let d := Json.decimal n
  List.replicate (6 - d.length) 32 ++ d ++ 32 :: o.name

/-- `log_counts` (`src/counters.rs:40-78`). -/
def logCounts (c : Counters) : List Event :=
  let counts := Op.all.filter (fun o => 0 < c o)
  if counts = [] then []
  else .said .debug (ascii "Counters:") :: counts.map (fun o => .said .debug (countLine (c o) o))

/-- What a command did: what it said, what it counted, and how it ended. -/
structure Did where
  events : List Event
  bumps : List (Op × Nat)
  result : Res Unit

/-- A command: what it does, given the configuration, the directory it runs in, the path of the repository,
and which command it is. -/
abbrev Body := Config → Bytes → Bytes → Command → Did

/-- What is there when the program starts: its directory, which paths are those of directories, what
configurations are where, and the path of `~/.config/backpak.toml`. -/
structure World where
  cwd : Bytes
  isDir : Bytes → Bool
  files : Bytes → Config.File
  home : Option Bytes

/-- The path that a path leads to from a directory. -/
def resolve (cwd p : Bytes) : Bytes :=
  match p with
  | 0x2f :: _ => p
  | _ => cwd ++ 0x2f :: p

/-- `.backpak`. -/
def localName : Bytes := ascii ".backpak"

/-- `config::load` (`src/config.rs:54-94`) in a directory: the path given with `--config` and `.backpak`
are taken from there. -/
def loadIn (w : World) (cwd : Bytes) (arg : Option Bytes) : Res Config :=
  Config.load arg w.home (fun p => w.files (resolve cwd p)) (w.files (resolve cwd localName))

/-- What `config::load` says (`src/config.rs:58,84-87`). -/
def configSays (w : World) (cwd : Bytes) (arg : Option Bytes) : List Event :=
  if arg = some [] then [.said .debug (ascii "Using default config per --config \"\"")]
  else
    match (match arg with
      | some p => some p
      | none => w.home) with
    | none => []
    | some p =>
      match w.files (resolve cwd p), w.files (resolve cwd localName) with
      | .holds _, .holds lc =>
        if lc.cacheSize = Config.default.cacheSize then []
        else [.said .warn (ascii "Ignoring cache_size in .backpak - set it globally in ~/.config/backpak.toml")]
      | _, _ => []

/-- `run` (`src/main.rs:75-108`). -/
def run (body : Body) (a : Args) (w : World) : Did :=
  let before := configSays w w.cwd a.config
  match loadIn w w.cwd a.config with
  | .error e => ⟨before, [], .error e⟩
  | .ok conf =>
    match (match a.dir with
      | none => some w.cwd
      | some d => if w.isDir (resolve w.cwd d) then some (resolve w.cwd d) else none) with
    | none => ⟨before, [], .error (.panic "Couldn't change working directory")⟩
    | some cwd =>
      let d := body conf cwd a.repository a.command
      match d.result with
      | .error e => ⟨before ++ d.events, d.bumps, .error e⟩
      | .ok () => ⟨before ++ d.events ++ logCounts (Counters.after d.bumps), d.bumps, .ok ()⟩

/-- What one who starts the program gets to see. -/
structure Seen where
  stdout : Bytes
  stderr : List Line
  code : Nat
deriving DecidableEq

/-- `main` (`src/main.rs:71-73`), `fatal` (`src/lib.rs:74-83`); a panic of the main thread ends the program
with 101. -/
def main (body : Body) (a : Args) (w : World) : Seen :=
  let d := run body a w
  let out := d.events.flatMap (Event.toStdout (quiet a.command))
  let err := d.events.flatMap (Event.toStderr a.verbose)
  match d.result with
  | .ok () => ⟨out, err, 0⟩
  | .error (.err t) => ⟨out, err ++ Event.toStderr a.verbose (.said .error (ascii t)), 1⟩
  | .error (.panic t) => ⟨out, err ++ [.panicked t], 101⟩

end Backpak.Main
