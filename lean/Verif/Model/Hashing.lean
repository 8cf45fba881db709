import Verif.Model.Basic

/-!
# Object IDs and their text form (`src/hashing.rs`)

SHA-224 itself is not modelled: wherever the code hashes something the model
takes a function `Bytes → Id` as a parameter.
-/

namespace Backpak

/-- Big-endian digits: the `n` base-`B` digits of `N`, most significant first. -/
def toDigits (B : Nat) : Nat → Nat → List Nat
  | 0, _ => []
  | n + 1, N => toDigits B n (N / B) ++ [N % B]

/-- The number with the given big-endian base-`B` digits. -/
def ofDigits (B : Nat) (ds : List Nat) : Nat := ds.foldl (fun a d => a * B + d) 0

namespace Base32

/-- The alphabet `"0123456789abcdefghijklmnopqrstuv"` (`src/hashing.rs:15`). -/
def symbol (v : Nat) : UInt8 := if v < 10 then UInt8.ofNat (48 + v) else UInt8.ofNat (87 + v)

/-- The inverse of the alphabet; anything else, uppercase included, is rejected
(`src/hashing.rs:13`: "no translation from uppercase"). -/
def value (c : UInt8) : Option Nat :=
  let n := c.toNat
  if 48 ≤ n ∧ n ≤ 57 then some (n - 48)
  else if 97 ≤ n ∧ n ≤ 118 then some (n - 87)
  else none

/-- `BASE32.encode` (`src/hashing.rs:12-17`, `data_encoding::Encoding::encode`
with 5-bit symbols, most significant bit first, no padding characters): the
bits of the input, followed by zero bits up to a multiple of five, read five at
a time. Written with numbers rather than bit lists. -/
def encode (bs : Bytes) : Bytes :=
  let k := (8 * bs.length + 4) / 5
  let pad := 5 * k - 8 * bs.length
  (toDigits 32 k (ofDigits 256 (bs.map UInt8.toNat) * 2 ^ pad)).map symbol

/-- `BASE32.decode` (`src/hashing.rs:12-17`, `data_encoding::Encoding::decode`
with its default trailing-bit check): every symbol must be in the alphabet, the
left-over bits must be fewer than five, and they must be zero. -/
def decode (s : Bytes) : Option Bytes :=
  match s.mapM value with
  | none => none
  | some vs =>
    let trail := 5 * s.length % 8
    if trail ≥ 5 then none
    else
      let N := ofDigits 32 vs
      if N % 2 ^ trail ≠ 0 then none
      else some ((toDigits 256 (5 * s.length / 8) (N / 2 ^ trail)).map UInt8.ofNat)

end Base32

/-- `ObjectId` (`src/hashing.rs:21-25`): the 28 bytes of a SHA-224 digest. -/
structure ObjectId where
  digest : Bytes
  len : digest.length = 28
deriving DecidableEq

namespace ObjectId

/-- `Display for ObjectId` (`src/hashing.rs:55-59`). -/
def display (id : ObjectId) : Bytes := Base32.encode id.digest

/-- `FromStr for ObjectId` (`src/hashing.rs:61-77`). -/
def parse (s : Bytes) : Option ObjectId :=
  match Base32.decode s with
  | none => none
  | some bs => if h : bs.length = 28 then some ⟨bs, h⟩ else none

/-- `derive(Ord)` on `ObjectId` (`src/hashing.rs:22`): digests compare as byte
strings. -/
instance : LinearOrder ObjectId where
  le a b := a.digest ≤ b.digest
  lt a b := a.digest < b.digest
  le_refl a := le_refl a.digest
  le_trans a b c := le_trans (a := a.digest)
  lt_iff_le_not_ge a b := lt_iff_le_not_ge (a := a.digest)
  le_antisymm a b h h' := by
    have := le_antisymm h h'
    cases a; cases b; cases this; rfl
  le_total a b := le_total a.digest b.digest
  toDecidableLE a b := inferInstanceAs (Decidable (a.digest ≤ b.digest))
  toDecidableLT a b := inferInstanceAs (Decidable (a.digest < b.digest))
  toDecidableEq := inferInstance

end ObjectId
end Backpak
