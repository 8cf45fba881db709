import Verif.Model.Names

/-!
# The cache on disk and the backend behind it (`src/backend/cache.rs`, `src/backend.rs:120-343`)

What one operation does to the disk and to the backend is modelled as a list of steps, so that it can
be looked at after any of them: the program may be killed, or a step may fail and end the operation.
-/

namespace Backpak

/-- The cache: the files in its directory, the rows of its table (the time of last use and the size),
and the limit (`src/backend/cache.rs:27-79`). -/
structure Cache where
  files : Bytes → Option Bytes
  rows : Bytes → Option (Int × Nat)
  limit : Nat

/-- A row with its name. -/
structure Row where
  name : Bytes
  time : Int
  size : Nat
deriving DecidableEq, Repr

/-- A cache and the objects of a backend, by place. -/
structure Backed where
  cache : Cache
  store : Bytes → Option Bytes

namespace Backed

/-- The steps of which operations are made. -/
inductive Act
  /-- `Backend::write`; that it happens at once or not at all is `C47` for filesystems -/
  | put (place x : Bytes)
  /-- `Backend::remove` -/
  | take (place : Bytes)
  /-- `safe_copy_to_file` or `move_opened` to the cache (`src/backend/cache.rs:104,111`) -/
  | keep (name x : Bytes)
  /-- `bump_row` (`src/backend/cache.rs:116-122`) -/
  | row (name : Bytes) (time : Int) (size : Nat)
  /-- `delete_if_exists` (`src/backend/cache.rs:135-141`) -/
  | unkeep (name : Bytes)
  /-- `DELETE FROM cache WHERE name == ?1` (`src/backend/cache.rs:93,130`) -/
  | unrow (name : Bytes)
  /-- `DELETE FROM cache WHERE time < ?1` (`src/backend/cache.rs:186`) -/
  | unrowBefore (time : Int)
deriving DecidableEq, Repr

/-- Change what a function gives for one argument. -/
def setAt {α : Type} (f : Bytes → Option α) (n : Bytes) (v : Option α) : Bytes → Option α :=
  fun m => if m = n then v else f m

def act : Act → Backed → Backed
  | .put p x, s => { s with store := setAt s.store p (some x) }
  | .take p, s => { s with store := setAt s.store p none }
  | .keep n x, s => { s with cache := { s.cache with files := setAt s.cache.files n (some x) } }
  | .row n t k, s => { s with cache := { s.cache with rows := setAt s.cache.rows n (some (t, k)) } }
  | .unkeep n, s => { s with cache := { s.cache with files := setAt s.cache.files n none } }
  | .unrow n, s => { s with cache := { s.cache with rows := setAt s.cache.rows n none } }
  | .unrowBefore o, s =>
    { s with cache := { s.cache with rows := fun m => match s.cache.rows m with
        | none => none
        | some (t, k) => if t < o then none else some (t, k) } }

def acts (l : List Act) (s : Backed) : Backed := l.foldl (fun s a => act a s) s

/-- The first loop of `prune` (`src/backend/cache.rs:159-175`): `none` if everything fits, else the
time of the last row that was counted, and the rows after it. -/
def scan (limit : Nat) : Nat → Option Int → List Row → Option (Option Int × List Row)
  | acc, last, [] => if acc < limit then none else some (last, [])
  | acc, last, r :: rest => if acc < limit then scan limit (acc + r.size) (some r.time) rest else some (last, r :: rest)

/-- `prune` (`src/backend/cache.rs:143-193`), given the rows in the order of the query: the steps, and
whether it succeeds. -/
def pruneActs (limit : Nat) (rows : List Row) : List Act × Option Fail :=
  match scan limit 0 none rows with
  | none => ([], none)
  | some (last, rest) =>
    let dels := rest.map (fun r => Act.unkeep r.name)
    match last with
    | some o => (dels ++ [.unrowBefore o], none)
    | none => (dels, some (.err "Absurd: zero-size cache"))

/-- The rows in an order a query may give them in: latest first (`ORDER BY time DESC`); of equal times,
the order is not specified. -/
structure Latest (c : Cache) (l : List Row) : Prop where
  rows : ∀ r : Row, r ∈ l ↔ c.rows r.name = some (r.time, r.size)
  names : (l.map Row.name).Nodup
  order : l.Pairwise (fun a b => b.time ≤ a.time)

/-- What an operation gives. -/
structure Outcome (α : Type) where
  acts : List Act
  result : Res α

/-- Finish an operation by pruning: `order` gives the order of the rows. -/
def thenPrune {α : Type} (order : Cache → List Row) (s : Backed) (l : List Act) (x : α) : Outcome α :=
  let c := (acts l s).cache
  match pruneActs c.limit (order c) with
  | (l', none) => ⟨l ++ l', .ok x⟩
  | (l', some e) => ⟨l ++ l', .error e⟩

/-- `CachedBackend::read` (`src/backend.rs:181-234`), of the variant with a cache. `always` is
`CacheBehavior::AlwaysRead`, `now` the time. -/
def read (order : Cache → List Row) (always : Bool) (now : Int) (name : Bytes) (s : Backed) : Outcome Bytes :=
  let fetch (l : List Act) : Outcome Bytes :=
    match destination name with
    | .error e => ⟨l, .error e⟩
    | .ok place =>
      match s.store place with
      | none => ⟨l, .error (.err "Couldn't open")⟩
      | some x => thenPrune order s (l ++ [.keep name x, .row name now x.length]) x
  if always then fetch []
  else
    match s.cache.files name with
    | some x => ⟨[.row name now x.length], .ok x⟩
    | none => fetch [.unrow name]

/-- `CachedBackend::write` (`src/backend.rs:236-267`). -/
def write (order : Cache → List Row) (now : Int) (name x : Bytes) (s : Backed) : Outcome Unit :=
  match destination name with
  | .error e => ⟨[], .error e⟩
  | .ok place => thenPrune order s [.put place x, .keep name x, .row name now x.length] ()

/-- `CachedBackend::remove` (`src/backend.rs:269-283`). Removing what is not there is an error. -/
def remove (name : Bytes) (s : Backed) : Outcome Unit :=
  let l : List Act := [.unkeep name, .unrow name]
  match destination name with
  | .error e => ⟨l, .error e⟩
  | .ok place =>
    match s.store place with
    | none => ⟨l, .error (.err "Couldn't remove")⟩
    | some _ => ⟨l ++ [.take place], .ok ()⟩

/-- The places `CachedBackend::list` gives (`src/backend.rs:288-295`). -/
def Listed (pre : Bytes) (s : Backed) (place : Bytes) : Prop := pre <+: place ∧ s.store place ≠ none

end Backed

end Backpak
