import Verif.Spec.Path

/-!
# What is left in
-/

namespace Backpak.Spec

/-- Neither a path nor anything it is in is skipped. -/
def Passes (filter : Path → Bool) (p : Path) : Prop := ∀ q, q ≠ [] → q <+: p → filter q = true

end Backpak.Spec
