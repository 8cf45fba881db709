import Verif.Model.Hashing

/-!
# CBOR, as far as backpak uses it

`ciborium::into_writer` and `ciborium::from_reader` (used at `src/pack.rs:66`,
`src/index.rs:183`, `src/tree.rs:338`, `src/snapshot.rs:138` and the matching
readers). The library is not in `/repo`; this follows RFC 8949 restricted to
the items the serialised types produce: integers, definite-length byte and text
strings, definite arrays and maps, indefinite maps (which serde's `flatten`
produces) and `null`. The reference files in `/repo/tests/references` pin the
byte layout (see `Verif.Props.C02` and following).
-/

namespace Backpak

/-- A CBOR data item. Maps hold keys and values alternating, so an even number
of items. Text is kept as its UTF-8 bytes. -/
inductive Cbor
  | uint (n : Nat)
  /-- The negative integer `-1 - n`. -/
  | nint (n : Nat)
  | bytes (b : Bytes)
  | text (b : Bytes)
  | arr (l : List Cbor)
  | map (l : List Cbor)
  /-- Indefinite-length map. -/
  | mapI (l : List Cbor)
  | null

namespace Cbor

/-- Big-endian bytes. -/
def be (n N : Nat) : Bytes := (toDigits 256 n N).map UInt8.ofNat

/-- Item head: major type and argument, in the shortest form
(RFC 8949 section 3). -/
def head (major n : Nat) : Bytes :=
  if n < 24 then [UInt8.ofNat (32 * major + n)]
  else if n < 2 ^ 8 then UInt8.ofNat (32 * major + 24) :: be 1 n
  else if n < 2 ^ 16 then UInt8.ofNat (32 * major + 25) :: be 2 n
  else if n < 2 ^ 32 then UInt8.ofNat (32 * major + 26) :: be 4 n
  else UInt8.ofNat (32 * major + 27) :: be 8 n

/- The encoder and its list version. -/
mutual
/-- `ciborium::into_writer`. -/
def enc : Cbor → Bytes
  | uint n => head 0 n
  | nint n => head 1 n
  | bytes b => head 2 b.length ++ b
  | text b => head 3 b.length ++ b
  | arr l => head 4 l.length ++ encs l
  | map l => head 5 (l.length / 2) ++ encs l
  | mapI l => 0xbf :: (encs l ++ [0xff])
  | null => [0xf6]
/-- Items one after the other. -/
def encs : List Cbor → Bytes
  | [] => []
  | v :: l => enc v ++ encs l
end

/-- Read a big-endian number from exactly `n` bytes. -/
def rdBe (n : Nat) (bs : Bytes) : Option (Nat × Bytes) :=
  if n ≤ bs.length then some (ofDigits 256 ((bs.take n).map UInt8.toNat), bs.drop n) else none

/-- Argument of an item head: a number, or the indefinite-length marker. -/
inductive Arg
  | val (n : Nat)
  | indef
deriving DecidableEq

/-- Read an item head. Longer-than-needed arguments are accepted. -/
def rdHead : Bytes → Option (Nat × Arg × Bytes)
  | [] => none
  | b :: bs =>
    let major := b.toNat / 32
    let ai := b.toNat % 32
    if ai < 24 then some (major, .val ai, bs)
    else if ai = 24 then (rdBe 1 bs).map fun p => (major, .val p.1, p.2)
    else if ai = 25 then (rdBe 2 bs).map fun p => (major, .val p.1, p.2)
    else if ai = 26 then (rdBe 4 bs).map fun p => (major, .val p.1, p.2)
    else if ai = 27 then (rdBe 8 bs).map fun p => (major, .val p.1, p.2)
    else if ai = 31 then some (major, .indef, bs)
    else none

/-- Read `n` items with the item reader `f`. -/
def rdMany (f : Bytes → Option (Cbor × Bytes)) : Nat → Bytes → Option (List Cbor × Bytes)
  | 0, bs => some ([], bs)
  | n + 1, bs =>
    match f bs with
    | none => none
    | some (v, bs') =>
      match rdMany f n bs' with
      | none => none
      | some (l, bs'') => some (v :: l, bs'')

/-- Read items with `f` up to the break byte `0xff`. The first argument bounds
the number of items and is always the input's length, which cannot run out
because every item takes at least one byte. -/
def rdUntil (f : Bytes → Option (Cbor × Bytes)) : Nat → Bytes → Option (List Cbor × Bytes)
  | 0, _ => none
  | n + 1, bs =>
    match bs with
    | [] => none
    | b :: rest =>
      if b = 0xff then some ([], rest)
      else
        match f bs with
        | none => none
        | some (v, bs') =>
          match rdUntil f n bs' with
          | none => none
          | some (l, bs'') => some (v :: l, bs'')

/-- Read exactly `n` bytes. -/
def rdBytes (n : Nat) (bs : Bytes) : Option (Bytes × Bytes) :=
  if n ≤ bs.length then some (bs.take n, bs.drop n) else none

/-- `ciborium::from_reader`, as a function from the input to the item and the
unread rest. The first argument is the nesting limit (256 in ciborium).
Segmented strings, indefinite arrays, floats, tags and booleans are not
modelled and are refused. -/
def dec : Nat → Bytes → Option (Cbor × Bytes)
  | 0, _ => none
  | d + 1, bs =>
    match rdHead bs with
    | none => none
    | some (major, arg, rest) =>
      match major, arg with
      | 0, .val n => some (uint n, rest)
      | 1, .val n => some (nint n, rest)
      | 2, .val n => (rdBytes n rest).map fun p => (bytes p.1, p.2)
      | 3, .val n => (rdBytes n rest).map fun p => (text p.1, p.2)
      | 4, .val n => (rdMany (dec d) n rest).map fun p => (arr p.1, p.2)
      | 5, .val n => (rdMany (dec d) (2 * n) rest).map fun p => (map p.1, p.2)
      | 5, .indef =>
        match rdUntil (dec d) bs.length rest with
        | none => none
        | some (l, rest') => if l.length % 2 = 0 then some (mapI l, rest') else none
      | 7, .val 22 => some (null, rest)
      | _, _ => none

/-- ciborium's default recursion limit. -/
def limit : Nat := 256

/- What can be encoded, and how deep it nests. -/
mutual
/-- Arguments fit in 64 bits, maps have as many keys as values, nesting at most `d`. -/
def Ok : Nat → Cbor → Prop
  | 0, _ => False
  | _ + 1, uint n => n < 2 ^ 64
  | _ + 1, nint n => n < 2 ^ 64
  | _ + 1, bytes b => b.length < 2 ^ 64
  | _ + 1, text b => b.length < 2 ^ 64
  | d + 1, arr l => l.length < 2 ^ 64 ∧ Oks d l
  | d + 1, map l => l.length % 2 = 0 ∧ l.length / 2 < 2 ^ 64 ∧ Oks d l
  | d + 1, mapI l => l.length % 2 = 0 ∧ Oks d l
  | _ + 1, null => True
/-- All items of a list are encodable. -/
def Oks : Nat → List Cbor → Prop
  | _, [] => True
  | d, v :: l => Ok d v ∧ Oks d l
end

end Cbor
end Backpak
