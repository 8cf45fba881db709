import Verif.Model.Json

/-!
# Reading JSON

A reader for JSON without spaces, written from the grammar in RFC 8259. Escapes of characters beyond ASCII
and numbers with fractions or exponents are left out: nothing here is written with them.
-/

namespace Backpak.Json

/-- The value of a hexadecimal digit. -/
def unhex (c : UInt8) : Option Nat :=
  let n := c.toNat
  if 48 ≤ n ∧ n ≤ 57 then some (n - 48)
  else if 97 ≤ n ∧ n ≤ 102 then some (n - 87)
  else if 65 ≤ n ∧ n ≤ 70 then some (n - 55)
  else none

/-- Four hexadecimal digits, for a character of ASCII. -/
def unescape (a b c d : UInt8) : Option UInt8 := do
  let a ← unhex a
  let b ← unhex b
  let c ← unhex c
  let d ← unhex d
  let n := ((a * 16 + b) * 16 + c) * 16 + d
  if n < 128 then some (UInt8.ofNat n) else none

/-- The character after a backslash. -/
def simple (c : UInt8) : Option UInt8 :=
  if c = 0x22 then some 0x22
  else if c = 0x5c then some 0x5c
  else if c = 0x2f then some 0x2f
  else if c = 0x62 then some 0x08
  else if c = 0x66 then some 0x0c
  else if c = 0x6e then some 0x0a
  else if c = 0x72 then some 0x0d
  else if c = 0x74 then some 0x09
  else none

/-- A string, after its first quotation mark, and what follows its last. -/
def rdString : Bytes → Option (Bytes × Bytes)
  | [] => none
  | 0x22 :: r => some ([], r)
  | 0x5c :: 0x75 :: a :: b :: c :: d :: r => do
    let x ← unescape a b c d
    let (s, r) ← rdString r
    pure (x :: s, r)
  | 0x5c :: c :: r => do
    let x ← simple c
    let (s, r) ← rdString r
    pure (x :: s, r)
  | c :: r => if c.toNat < 0x20 then none else do
    let (s, r) ← rdString r
    pure (c :: s, r)

/-- Is it a digit? -/
def isDigit (c : UInt8) : Bool := decide (48 ≤ c.toNat ∧ c.toNat ≤ 57)

/-- Digits, and what follows. There must be one, and the first of several must not be zero. -/
def rdDigits (bs : Bytes) : Option (Nat × Bytes) :=
  let ds := bs.takeWhile isDigit
  if ds = [] ∨ (ds.head? = some 48 ∧ ds ≠ [48]) then none
  else some (ds.foldl (fun n c => n * 10 + (c.toNat - 48)) 0, bs.dropWhile isDigit)

mutual

/-- A value, and what follows it. -/
def rd : Nat → Bytes → Option (Json × Bytes)
  | 0, _ => none
  | _ + 1, [] => none
  | n + 1, c :: r =>
    if c = 0x22 then (rdString r).map fun x => (.str x.1, x.2)
    else if c = 0x5b then
      if r.head? = some 0x5d then some (.arr [], r.tail) else (rdItems n r).map fun x => (.arr x.1, x.2)
    else if c = 0x7b then
      if r.head? = some 0x7d then some (.obj [], r.tail) else (rdFields n r).map fun x => (.obj x.1, x.2)
    else if c = 0x2d then
      (rdDigits r).map fun x => (.num (-(x.1 : Int)), x.2)
    else if isDigit c then (rdDigits (c :: r)).map fun x => (.num x.1, x.2)
    else if (c :: r).take 4 = ascii "null" then some (.null, r.drop 3)
    else none

/-- The rest of an array, which has at least one more item. -/
def rdItems : Nat → Bytes → Option (List Json × Bytes)
  | 0, _ => none
  | n + 1, bs =>
    match rd n bs with
    | some (j, 0x5d :: r) => some ([j], r)
    | some (j, 0x2c :: r) => (rdItems n r).map fun x => (j :: x.1, x.2)
    | _ => none

/-- The rest of an object, which has at least one more field. -/
def rdFields : Nat → Bytes → Option (List (Bytes × Json) × Bytes)
  | 0, _ => none
  | n + 1, bs =>
    match bs with
    | 0x22 :: r =>
      match rdString r with
      | some (k, 0x3a :: r) =>
        match rd n r with
        | some (j, 0x7d :: r) => some ([(k, j)], r)
        | some (j, 0x2c :: r) => (rdFields n r).map fun x => ((k, j) :: x.1, x.2)
        | _ => none
      | _ => none
    | _ => none

end

/-- A whole text as one value. -/
def parse (bs : Bytes) : Option Json :=
  match rd bs.length bs with
  | some (j, []) => some j
  | _ => none

/-- No object has a key twice. -/
inductive Distinct : Json → Prop
  | null : Distinct .null
  | num (i) : Distinct (.num i)
  | str (b) : Distinct (.str b)
  | arr {l} : (∀ j ∈ l, Distinct j) → Distinct (.arr l)
  | obj {l : List (Bytes × Json)} : (l.map Prod.fst).Nodup → (∀ p ∈ l, Distinct p.2) → Distinct (.obj l)

end Backpak.Json
