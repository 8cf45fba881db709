import Verif.Model.Cache

/-!
# Several threads and processes and one cache (`src/backend/cache.rs`, `src/backend.rs:181-283`)

The requests of `Model/Cache`, one step after another, with the steps of others in between. The threads of one
process share one connection to the table of rows, under a lock (`src/backend/cache.rs:29`); `prune` holds it from
beginning to end (`src/backend/cache.rs:145`). Processes share the file of the table. A transaction that has read and
then wants to write fails if another connection has written since (SQLite: `SQLITE_BUSY_SNAPSHOT`, which no timeout
waits for); `prune` is the only one that does (`src/backend/cache.rs:146,186`). A statement of its own is one step.
-/

namespace Backpak.SharedCache

open Backed

/-- What is asked. -/
inductive Want
  | read (always : Bool) (name : Bytes)
  | write (name x : Bytes)
  | remove (name : Bytes)
deriving DecidableEq

/-- Where a thread is. -/
inductive At
  | idle
  /-- `try_read`: about to open the file (`src/backend/cache.rs:82`) -/
  | opening (name : Bytes)
  /-- it is there and open; about to note the use (`src/backend/cache.rs:84`) -/
  | hit (name x : Bytes)
  /-- it is not there; about to drop the row (`src/backend/cache.rs:87-93`) -/
  | missed (name : Bytes)
  /-- about to read from the backend (`src/backend.rs:215-218`) -/
  | fetching (name : Bytes)
  /-- about to put what was read in the cache (`src/backend.rs:219`) -/
  | fetched (name x : Bytes)
  /-- about to write to the backend (`src/backend.rs:252`) -/
  | writing (name x : Bytes)
  /-- about to move it to the cache (`src/backend.rs:254`) -/
  | written (name x : Bytes)
  /-- in the cache; about to note that (`src/backend/cache.rs:105,112`). `r` is what a read will give, with
  its name. -/
  | kept (name x : Bytes) (r : Option (Bytes × Bytes))
  /-- about to prune (`src/backend.rs:220,256`) -/
  | pruning (r : Option (Bytes × Bytes))
  /-- the rest of a prune that has read the rows when the table had this version; and how it ends -/
  | deleting (ver : Nat) (rest : List Act) (e : Option Fail) (r : Option (Bytes × Bytes))
  /-- `evict`: about to remove the file, the row (`src/backend/cache.rs:124-133`), the object (`src/backend.rs:278`) -/
  | evicting (name : Bytes)
  | evicted (name : Bytes)
  | removing (name : Bytes)
  /-- the request has ended; a read with what was asked for and what was read -/
  | done (r : Option (Bytes × Bytes))
  | failed (e : Fail)
deriving DecidableEq

/-- The start of a request. -/
def start : Want → At
  | .read true n => .fetching n
  | .read false n => .opening n
  | .write n x => .writing n x
  | .remove n => .evicting n

/-- Not in a request. -/
def At.free : At → Bool
  | .idle | .done _ | .failed _ => true
  | _ => false

/-- Threads `κ` of processes `π` and what they share. -/
structure Many (κ π : Type) where
  backed : Backed
  /-- how often the table was written -/
  ver : Nat
  /-- which thread of a process has its connection, if a prune is under way -/
  lock : π → Option κ
  now : κ → At

variable {κ π : Type} [DecidableEq κ] [DecidableEq π]

/-- A thread takes a step that changes what is shared so. -/
def Many.go (m : Many κ π) (c : κ) (a : At) (acts : List Act) (wrote : Bool) : Many κ π :=
  { m with backed := Backed.acts acts m.backed, ver := if wrote then m.ver + 1 else m.ver,
           now := Function.update m.now c a }

/-- The connection can be had. -/
def Many.open (m : Many κ π) (p : π) : Prop := m.lock p = none

/-- One step. `proc` says which process a thread is of, `may` what may be asked, given what
the backend holds. -/
inductive Step (proc : κ → π) (may : (Bytes → Option Bytes) → Want → Prop) : Many κ π → Many κ π → Prop
  | ask (m c w) : (m.now c).free = true → may m.backed.store w → Step proc may m (m.go c (start w) [] false)
  | openHit (m c n x) : m.now c = .opening n → m.backed.cache.files n = some x →
      Step proc may m (m.go c (.hit n x) [] false)
  | openMiss (m c n) : m.now c = .opening n → m.backed.cache.files n = none →
      Step proc may m (m.go c (.missed n) [] false)
  | use (m c n x) (t : Int) : m.now c = .hit n x → m.open (proc c) →
      Step proc may m (m.go c (.done (some (n, x))) [.row n t x.length] true)
  | drop (m c n) : m.now c = .missed n → m.open (proc c) →
      Step proc may m (m.go c (.fetching n) [.unrow n] (m.backed.cache.rows n).isSome)
  | fetch (m c n p x) : m.now c = .fetching n → destination n = .ok p → m.backed.store p = some x →
      Step proc may m (m.go c (.fetched n x) [] false)
  | fetchNot (m c n p) : m.now c = .fetching n → destination n = .ok p → m.backed.store p = none →
      Step proc may m (m.go c (.failed (.err "Couldn't open")) [] false)
  | fetchBad (m c n e) : m.now c = .fetching n → destination n = .error e →
      Step proc may m (m.go c (.failed e) [] false)
  | put (m c n p x) : m.now c = .writing n x → destination n = .ok p →
      Step proc may m (m.go c (.written n x) [.put p x] false)
  | putBad (m c n x e) : m.now c = .writing n x → destination n = .error e →
      Step proc may m (m.go c (.failed e) [] false)
  | keepRead (m c n x) : m.now c = .fetched n x →
      Step proc may m (m.go c (.kept n x (some (n, x))) [.keep n x] false)
  | keepWrite (m c n x) : m.now c = .written n x →
      Step proc may m (m.go c (.kept n x none) [.keep n x] false)
  | row (m c n x r) (t : Int) : m.now c = .kept n x r → m.open (proc c) →
      Step proc may m (m.go c (.pruning r) [.row n t x.length] true)
  /-- `prune` reads the limit and the rows, in an order the query may give them in. -/
  | scan (m c r l) : m.now c = .pruning r → m.open (proc c) → Latest m.backed.cache l →
      Step proc may m { m.go c (.deleting m.ver (pruneActs m.backed.cache.limit l).1
          (pruneActs m.backed.cache.limit l).2 r) [] false with lock := Function.update m.lock (proc c) (some c) }
  | unkeep (m c v n rest e r) : m.now c = .deleting v (.unkeep n :: rest) e r →
      Step proc may m (m.go c (.deleting v rest e r) [.unkeep n] false)
  | commit (m c v o rest e r) : m.now c = .deleting v (.unrowBefore o :: rest) e r → m.ver = v →
      Step proc may m (m.go c (.deleting (v + 1) rest e r) [.unrowBefore o] true)
  | busy (m c v o rest e r) : m.now c = .deleting v (.unrowBefore o :: rest) e r → m.ver ≠ v →
      Step proc may m { m.go c (.failed (.err "database is locked")) [] false with
        lock := Function.update m.lock (proc c) none }
  | pruned (m c v r) : m.now c = .deleting v [] none r →
      Step proc may m { m.go c (.done r) [] false with lock := Function.update m.lock (proc c) none }
  | prunedBad (m c v e r) : m.now c = .deleting v [] (some e) r →
      Step proc may m { m.go c (.failed e) [] false with lock := Function.update m.lock (proc c) none }
  | evict (m c n) : m.now c = .evicting n → Step proc may m (m.go c (.evicted n) [.unkeep n] false)
  | unrow (m c n) : m.now c = .evicted n → m.open (proc c) →
      Step proc may m (m.go c (.removing n) [.unrow n] (m.backed.cache.rows n).isSome)
  | take (m c n p x) : m.now c = .removing n → destination n = .ok p → m.backed.store p = some x →
      Step proc may m (m.go c (.done none) [.take p] false)
  | takeNot (m c n p) : m.now c = .removing n → destination n = .ok p → m.backed.store p = none →
      Step proc may m (m.go c (.failed (.err "Couldn't remove")) [] false)
  | takeBad (m c n e) : m.now c = .removing n → destination n = .error e →
      Step proc may m (m.go c (.failed e) [] false)

/-- An empty cache, a backend, and nobody who asks anything. -/
def init (store : Bytes → Option Bytes) (limit : Nat) : Many κ π :=
  ⟨⟨⟨fun _ => none, fun _ => none, limit⟩, store⟩, 0, fun _ => none, fun _ => .idle⟩

/-- What can come of it. Threads may stop for good at any time. -/
def Reachable (proc : κ → π) (may : (Bytes → Option Bytes) → Want → Prop) (store : Bytes → Option Bytes) (limit : Nat) (m : Many κ π) : Prop :=
  Relation.ReflTransGen (Step proc may) (init store limit) m

end Backpak.SharedCache
