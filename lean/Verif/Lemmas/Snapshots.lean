import Verif.Model.Snapshots

/-!
# Lemmas about sorted lists of snapshots
-/

namespace Backpak

variable {Id : Type}

instance : IsTrans (Snap Id) noLater := ⟨fun _ _ _ h1 h2 => le_trans h1 h2⟩

instance : Std.Total (noLater (Id := Id)) := ⟨fun a b => le_total a.1.time b.1.time⟩

theorem sort_perm (l : List (Snap Id)) : (sortSnaps l).Perm l := List.perm_insertionSort _ l

theorem sort_sorted (l : List (Snap Id)) : (sortSnaps l).Pairwise noLater :=
  List.pairwise_insertionSort _ l

theorem chrono_perm (l : List (Snap Id)) : (loadChronologically l).Perm l := sort_perm l

theorem chrono_sorted (l : List (Snap Id)) :
    (loadChronologically l).Pairwise (fun a b => a.1.time ≤ b.1.time) := sort_sorted l

end Backpak
