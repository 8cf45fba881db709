import Verif.Model.Cache

/-!
# A backend behind a filter (`src/backend/filter.rs:71-169`, `src/backend.rs:179-295`)

The operations of `Backed`, on a backend that is a `BackendFilter`. What the programs do is `Model/Pipes`;
here a program gives bytes or fails. The cache is in front of the filter (`src/backend.rs:411-425`).
-/

namespace Backpak.Backed

/-- `CachedBackend::read`; `u` is what the unfilter program makes of an object, if it succeeds. -/
def readThrough (u : Bytes → Option Bytes) (order : Cache → List Row) (always : Bool) (now : Int) (name : Bytes)
    (s : Backed) : Outcome Bytes :=
  let fetch (l : List Act) : Outcome Bytes :=
    match destination name with
    | .error e => ⟨l, .error e⟩
    | .ok place =>
      match s.store place with
      | none => ⟨l, .error (.err "Couldn't open")⟩
      | some y =>
        match u y with
        | none => ⟨l, .error (.err "unfilter failed")⟩
        | some x => thenPrune order s (l ++ [.keep name x, .row name now x.length]) x
  if always then fetch []
  else
    match s.cache.files name with
    | some x => ⟨[.row name now x.length], .ok x⟩
    | none => fetch [.unrow name]

/-- `CachedBackend::write`; `made` is what the filter program makes of the object, if it succeeds. It need
not be the same every time: `gpg --encrypt` never makes the same twice. -/
def writeThrough (made : Option Bytes) (order : Cache → List Row) (now : Int) (name x : Bytes) (s : Backed) :
    Outcome Unit :=
  match destination name with
  | .error e => ⟨[], .error e⟩
  | .ok place =>
    match made with
    | none => ⟨[], .error (.err "filter failed")⟩
    | some y => thenPrune order s [.put place y, .keep name x, .row name now x.length] ()

-- `CachedBackend::remove` and `list` go straight to the backend behind the filter
-- (`src/backend/filter.rs:162-168`): `Backed.remove`, `Backed.Listed`.

end Backpak.Backed
