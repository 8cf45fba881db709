import Verif.Model.Basic
import Verif.Model.Types

/-!
# Backblaze B2 (`b2/src/lib.rs`, `src/backend/backblaze.rs:46-94`)

The service is not this project's code; what its documentation promises about listing, uploading and
deleting is `Page`, `Accepts` and `Bucket.delete`. Logging in (`Session::new`), JSON, HTTP and TLS are not
modelled.
-/

namespace Backpak.B2

/-- What kind of entry a listing shows (`action`). -/
inductive Action | upload | hide | start | folder
deriving DecidableEq, Repr

/-- One entry of a listing: its kind, and its length if it has one. -/
structure Item where
  action : Action
  length : Option Nat
deriving DecidableEq, Repr

/-- The answer to `b2_list_file_names`: entries, and `nextFileName`. -/
abbrev Answer := List (Name × Item) × Option Name

/-- The entries with a prefix from some name on. -/
def showing (B : BMap Name Item) (pre : Name) (start : Option Name) : List (Name × Item) :=
  B.filter fun e => pre.isPrefixOf e.1 && match start with
    | none => true
    | some s => decide (s ≤ e.1)

/-- What B2 documents about `b2_list_file_names`: some first part of the entries in order of name; then
either there are no more, or `nextFileName` is a name from which a further request goes on. -/
def Page (B : BMap Name Item) (pre : Name) (start : Option Name) (a : Answer) : Prop :=
  ∃ rest, showing B pre start = a.1 ++ rest ∧ (a.2 = none → rest = []) ∧
    ∀ n, a.2 = some n → a.1 ≠ [] ∧ rest = showing B pre (some n) ∧ ∀ s, start = some s → s ≤ n

/-- The names and lengths `list` keeps of a page (`b2/src/lib.rs:172-184`). -/
def uploads (l : List (Name × Item)) : List (Name × Nat) :=
  (l.filter fun e => e.2.action = .upload).filterMap fun e => e.2.length.map fun n => (e.1, n)

/-- The loop of `Session::list` (`b2/src/lib.rs:150-194`) for at most so many requests; `ask i s` answers
the `i`th request. `none` if the loop is not done by then. -/
def listLoop (ask : Nat → Option Name → Except Unit Answer) :
    Nat → Nat → Option Name → List (Name × Nat) → Option (Except Unit (List (Name × Nat)))
  | 0, _, _, _ => none
  | fuel + 1, i, start, fs =>
    match ask i start with
    | .error () => some (.error ())
    | .ok (page, next) =>
      match next with
      | none => some (.ok (fs ++ uploads page))
      | some n => listLoop ask fuel (i + 1) (some n) (fs ++ uploads page)

/-- `Session::list`. -/
def list (ask : Nat → Option Name → Except Unit Answer) (fuel : Nat) :
    Option (Except Unit (List (Name × Nat))) := listLoop ask fuel 0 none []

/-! ## Uploading -/

/-- `HashAppendingReader` (`b2/src/lib.rs:211-251`): still reading the contents, having hashed `hashed`; or
giving out the digest. -/
inductive Body
  | contents (rest hashed : Bytes)
  | suffix (left : Bytes)
deriving DecidableEq, Repr

variable (sha : Bytes → Bytes)

/-- `read` with a buffer of `n` bytes, when the reader inside would give at most `k` bytes at a time. A
reader gives nothing only at its end, or into an empty buffer. -/
def Body.read (n k : Nat) : Body → Bytes × Body
  | .contents rest hashed =>
    let got := rest.take (min n (max k 1))
    if got.length > 0 then (got, .contents (rest.drop (min n (max k 1))) (hashed ++ got))
    else ((sha hashed).take n, .suffix ((sha hashed).drop n))
  | .suffix left => (left.take n, .suffix (left.drop n))

/-- Reading with buffers one after another. -/
def Body.reads : List (Nat × Nat) → Body → Bytes × Body
  | [], b => ([], b)
  | (n, k) :: l, b =>
    let r := b.read sha n k
    let r' := Body.reads l r.2
    (r.1 ++ r'.1, r'.2)

/-- What B2 documents about `b2_upload_file` with `hex_digits_at_end`: it takes exactly the declared number
of bytes, of which the last 40 have to be the digest of the others, which are then the file. -/
def Accepts (declared : Nat) (body file : Bytes) : Prop :=
  body.length = declared ∧ 40 ≤ declared ∧ file = body.take (declared - 40) ∧ body.drop (declared - 40) = sha file

/-- What the network and the service do to one attempt: nothing unusual, fail when `k` bytes of the body
have been asked for, or lose the answer. -/
inductive Net
  | fine
  | cut (k : Nat)
  | lost
deriving DecidableEq, Repr

/-- One attempt at `Session::put` (`b2/src/lib.rs:205-266`): whether it succeeded, what was stored, and what
is left in the reader. An HTTP client given `Content-Length` asks for that much of the body; if there is
less it fails. Every error here is an HTTP error, none an `Error::Io`. -/
def put (len : Nat) (net : Net) (rest : Bytes) : Bool × Option Bytes × Bytes :=
  let body := (rest ++ sha rest).take (len + 40)
  match net with
  | .cut k => (false, none, rest.drop (min k (len + 40)))
  | _ =>
    let stored := if body.length = len + 40 ∧ body.drop len = sha (body.take len) then some (body.take len) else none
    (stored.isSome && net == .fine, stored, rest.drop (len + 40))

/-- `retry` around `put` (`src/backend/backblaze.rs:51-67,75-78`), the same reader each time, for at most so
many attempts: whether it has returned, and everything stored. -/
def upload (len : Nat) (net : Nat → Net) : Nat → Nat → Bytes → Bool × List Bytes
  | 0, _, _ => (false, [])
  | fuel + 1, i, rest =>
    let r := put sha len (net i) rest
    if r.1 then (true, r.2.1.toList)
    else
      let r' := upload len net fuel (i + 1) r.2.2
      (r'.1, r.2.1.toList ++ r'.2)

/-! ## Deleting -/

/-- One stored version of a file. -/
structure Version where
  name : Name
  id : Nat
deriving DecidableEq, Repr

/-- One attempt at `Session::delete` (`b2/src/lib.rs:268-301`) when nothing goes wrong: `none` if it fails.
B2 deletes a version if it is given its name and ID. -/
def delete (B : List Version) (name : Name) : Option (List Version) :=
  match B.filter fun v => name.isPrefixOf v.name with
  | [v] => if v.name = name then some (B.filter fun w => w ≠ v) else none
  | _ => none

/-- `retry` around an operation that changes nothing if it fails, of which attempt `i` reaches the service if
`up i`. -/
def retried {A : Type} (up : Nat → Bool) (op : Option A) : Nat → Nat → Option A
  | 0, _ => none
  | fuel + 1, i => if up i then (match op with | some a => some a | none => retried up op fuel (i + 1))
    else retried up op fuel (i + 1)

end Backpak.B2
