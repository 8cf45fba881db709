import Mathlib.Order.Defs.LinearOrder
import Mathlib.Order.Lattice
import Mathlib.Data.List.Lex
import Mathlib.Data.List.Basic

/-!
# Common vocabulary of the model

Byte strings, results, and the ordered maps and sets (`BTreeMap`, `BTreeSet`)
the Rust code uses everywhere.
-/

namespace Backpak

/-- A byte string (`Vec<u8>`, `&[u8]`). -/
abbrev Bytes := List UInt8

/-- The bytes of an ASCII literal (`b"..."`). -/
def ascii (s : String) : Bytes := s.toList.map (fun c => UInt8.ofNat c.toNat)

/-- How a Rust call can end other than by returning a value: an `anyhow::Error`
(`Err`) or a panic (failed `assert!`, `unwrap`, arithmetic overflow).  The
message of an error is kept as a tag only. -/
inductive Fail
  | err (tag : String)
  | panic (tag : String)
deriving DecidableEq, Repr

/-- `anyhow::Result<α>`, with panics made explicit. -/
abbrev Res (α : Type _) := Except Fail α

/-- Bytes are ordered by value, as `u8: Ord`. -/
instance : LinearOrder UInt8 where
  le := (· ≤ ·)
  lt := (· < ·)
  le_refl a := UInt8.le_refl a
  le_trans _ _ _ h h' := UInt8.le_trans h h'
  lt_iff_le_not_ge a b := by
    rw [UInt8.lt_iff_toNat_lt, UInt8.le_iff_toNat_le, UInt8.le_iff_toNat_le]; omega
  le_antisymm _ _ h h' := UInt8.le_antisymm h h'
  le_total a b := by
    rw [UInt8.le_iff_toNat_le, UInt8.le_iff_toNat_le]; omega
  toDecidableLE := inferInstance
  toDecidableEq := inferInstance
  toDecidableLT := inferInstance

/-! ## `BTreeMap` -/

/-- The contents of a `BTreeMap<K, V>`: its entries in iteration order.
`BMap.Sorted` is the invariant every map built by `insert` satisfies. -/
abbrev BMap (K V : Type _) := List (K × V)

namespace BMap

variable {K V : Type _}

/-- `BTreeMap::get`. -/
def get? [DecidableEq K] : BMap K V → K → Option V
  | [], _ => none
  | (k', v) :: m, k => if k' = k then some v else get? m k

/-- `BTreeMap::insert`, keeping entries in key order and replacing the value of
an existing key. -/
def insert [LinearOrder K] (k : K) (v : V) : BMap K V → BMap K V
  | [] => [(k, v)]
  | (k', v') :: m =>
    if k < k' then (k, v) :: (k', v') :: m
    else if k = k' then (k, v) :: m
    else (k', v') :: insert k v m

/-- `BTreeMap::remove`. -/
def erase [DecidableEq K] (k : K) : BMap K V → BMap K V
  | [] => []
  | (k', v') :: m => if k' = k then erase k m else (k', v') :: erase k m

/-- `BTreeMap::keys`. -/
def keys (m : BMap K V) : List K := m.map Prod.fst

/-- The invariant of a `BTreeMap`: strictly ascending keys. -/
def Sorted [LinearOrder K] (m : BMap K V) : Prop := (keys m).Pairwise (· < ·)

/-- `iter().collect::<BTreeMap<_, _>>()`: insert one after the other. -/
def ofList [LinearOrder K] (l : List (K × V)) : BMap K V :=
  l.foldl (fun m e => insert e.1 e.2 m) []

end BMap

/-! ## `BTreeSet` -/

/-- The contents of a `BTreeSet<K>`: its elements in iteration order. -/
abbrev BSet (K : Type _) := List K

namespace BSet

variable {K : Type _}

/-- `BTreeSet::insert`. -/
def insert [LinearOrder K] (k : K) : BSet K → BSet K
  | [] => [k]
  | k' :: m =>
    if k < k' then k :: k' :: m
    else if k = k' then k' :: m
    else k' :: insert k m

/-- The invariant of a `BTreeSet`: strictly ascending elements. -/
def Sorted [LinearOrder K] (s : BSet K) : Prop := s.Pairwise (· < ·)

/-- `iter().collect::<BTreeSet<_>>()`. -/
def ofList [LinearOrder K] (l : List K) : BSet K :=
  l.foldl (fun s k => insert k s) []

end BSet

end Backpak
