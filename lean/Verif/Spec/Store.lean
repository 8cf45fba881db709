import Verif.Model.Names

/-!
# What a store of objects is to do

A store is a table: what there is of each kind under each ID. Four things can be asked of it.
-/

namespace Backpak.Spec

abbrev Table := Shelf → ObjectId → Option Bytes

/-- What is asked of a store. -/
inductive Ask
  | write (k : Shelf) (id : ObjectId) (x : Bytes)
  | read (k : Shelf) (id : ObjectId)
  | remove (k : Shelf) (id : ObjectId)
  | list (k : Shelf)

/-- What it answers: that it is done, the contents, the paths with their lengths, or that it failed. -/
inductive Answer
  | done
  | got (x : Bytes)
  | paths (l : List (Bytes × Nat))
  | failed

/-- The table when what was asked has been done. -/
def Ask.after : Ask → Table → Table
  | .write k id x, m => fun k' id' => if k' = k ∧ id' = id then some x else m k' id'
  | .remove k id, m => fun k' id' => if k' = k ∧ id' = id then none else m k' id'
  | .read _ _, m => m
  | .list _, m => m

/-- A listing has each object of the kind once, by its path, with its length, and nothing else. -/
def Lists (m : Table) (k : Shelf) (l : List (Bytes × Nat)) : Prop :=
  (l.map Prod.fst).Nodup ∧
  ∀ p n, (p, n) ∈ l ↔ ∃ id x, p = k.dir ++ objectName k id ∧ m k id = some x ∧ n = x.length

/-- The right answers, and what the table is to be afterwards. A store that fails has done all of what was asked
or none of it. -/
def Right (m : Table) (a : Ask) (m' : Table) : Answer → Prop
  | .done => m' = a.after m ∧ ((∃ k id x, a = .write k id x) ∨ ∃ k id, a = .remove k id)
  | .got x => m' = m ∧ ∃ k id, a = .read k id ∧ m k id = some x
  | .paths l => m' = m ∧ ∃ k, a = .list k ∧ Lists m k l
  | .failed => m' = m ∨ m' = a.after m

/-- The same answer, but for the order of a listing. -/
def SameAnswer : Answer → Answer → Prop
  | .done, .done => True
  | .got x, .got y => x = y
  | .paths l, .paths l' => l.Perm l'
  | .failed, .failed => True
  | _, _ => False

/-- Answers given one after another. -/
inductive RightRun : Table → List (Ask × Answer) → Table → Prop
  | nil (m) : RightRun m [] m
  | cons {m m1 m2 a b l} : Right m a m1 b → RightRun m1 l m2 → RightRun m ((a, b) :: l) m2

end Backpak.Spec
