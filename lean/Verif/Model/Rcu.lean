import Mathlib.Logic.Relation

/-!
# A value that one thread publishes and others read (`src/rcu.rs`)

Each step is one atomic operation. `crossbeam_epoch` is represented by its contract: what is handed to `defer_destroy` is
destroyed some time after all guards are dropped that were pinned then. Memory is a list of cells, each allocated once;
sequentially consistent.
-/

namespace Backpak.Rcu

/-- The cells ever allocated, the one pointed to (`none` once the `Rcu` is dropped), the number of guards ever pinned,
and who has pinned one: calls of `borrow` that have not loaded the pointer, `Borrow`s with their cell, calls of `update`
before and after they swapped the pointer, the latter with the cell they got. Then what is to be destroyed, with the
guards there were, and what has been. -/
structure State (α : Type) where
  cells : List α
  cur : Option Nat
  next : Nat
  loading : List Nat
  borrows : List (Nat × Nat)
  updating : List (Nat × α)
  swapped : List (Nat × Nat)
  garbage : List (Nat × List Nat)
  freed : List Nat

variable {α : Type}

/-- The guards that are pinned. -/
def State.pinned (s : State α) : List Nat :=
  s.loading ++ (s.borrows.map Prod.fst ++ (s.updating.map Prod.fst ++ s.swapped.map Prod.fst))

/-- `Rcu::new` (`src/rcu.rs:34-37`). -/
def State.init (v : α) : State α := ⟨[v], some 0, 0, [], [], [], [], [], []⟩

inductive Step : State α → State α → Prop
  /-- `borrow` pins a guard (`src/rcu.rs:53-54`) -/
  | pin {cells c n loading bs us ss garbage freed} :
    Step ⟨cells, some c, n, loading, bs, us, ss, garbage, freed⟩
      ⟨cells, some c, n + 1, n :: loading, bs, us, ss, garbage, freed⟩
  /-- and loads the pointer (`src/rcu.rs:55-60`) -/
  | load {cells c n a g b bs us ss garbage freed} :
    Step ⟨cells, some c, n, a ++ g :: b, bs, us, ss, garbage, freed⟩
      ⟨cells, some c, n, a ++ b, (g, c) :: bs, us, ss, garbage, freed⟩
  /-- a `Borrow` is dropped, and its guard with it; the type has no lifetime, so this may be when the `Rcu` is no more
  (`src/rcu.rs:53,64-70`) -/
  | release {cells cur n loading a x b us ss garbage freed} :
    Step ⟨cells, cur, n, loading, a ++ x :: b, us, ss, garbage, freed⟩
      ⟨cells, cur, n, loading, a ++ b, us, ss, garbage, freed⟩
  /-- `update` pins a guard (`src/rcu.rs:40-41`) -/
  | begin {cells c n loading bs us ss garbage freed} (v : α) :
    Step ⟨cells, some c, n, loading, bs, us, ss, garbage, freed⟩
      ⟨cells, some c, n + 1, loading, bs, (n, v) :: us, ss, garbage, freed⟩
  /-- `swap` (`src/rcu.rs:42`) -/
  | swap {cells c n loading bs a g v b ss garbage freed} :
    Step ⟨cells, some c, n, loading, bs, a ++ (g, v) :: b, ss, garbage, freed⟩
      ⟨cells ++ [v], some cells.length, n, loading, bs, a ++ b, (g, c) :: ss, garbage, freed⟩
  /-- `defer_destroy`, and the guard is dropped (`src/rcu.rs:43-47`) -/
  | defer {cells cur n loading bs us a g c b garbage freed} :
    Step ⟨cells, cur, n, loading, bs, us, a ++ (g, c) :: b, garbage, freed⟩
      ⟨cells, cur, n, loading, bs, us, a ++ b,
        (c, (⟨cells, cur, n, loading, bs, us, a ++ (g, c) :: b, garbage, freed⟩ : State α).pinned) :: garbage, freed⟩
  /-- the contract of `crossbeam_epoch` -/
  | collect {cells cur n loading bs us ss a c gs b freed} :
    (∀ g ∈ gs, g ∉ (⟨cells, cur, n, loading, bs, us, ss, a ++ (c, gs) :: b, freed⟩ : State α).pinned) →
    Step ⟨cells, cur, n, loading, bs, us, ss, a ++ (c, gs) :: b, freed⟩
      ⟨cells, cur, n, loading, bs, us, ss, a ++ b, c :: freed⟩
  /-- `Rcu::drop` (`src/rcu.rs:21-31`): no call of `borrow` or `update` is under way, but there may be `Borrow`s -/
  | drop {cells c n bs garbage freed} :
    Step ⟨cells, some c, n, [], bs, [], [], garbage, freed⟩ ⟨cells, none, n, [], bs, [], [], garbage, c :: freed⟩

def Reachable (v : α) : State α → Prop := Relation.ReflTransGen Step (.init v)

end Backpak.Rcu
