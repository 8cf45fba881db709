import Verif.Model.Changing
import Verif.Spec.Walk

/-!
# What a backup of changing files should hold

Said of the filesystem's history only, not of how it is read.
-/

namespace Backpak.Spec

/-- The file at `p` is one file all the time from `t` on until `u`, with bytes `x`. -/
def StaysAs (H : History) (p : Path) (t u : Nat) (x : Bytes) : Prop :=
  ∃ i, ∀ v, t ≤ v → v ≤ u → (H v).file p = .ok i ∧ (H v).bytes i = x

/-- Files from 10 MiB on that can be opened between `t` and `z` do not change from then on until `z`. -/
def LargeStay (H : History) (t z : Nat) : Prop :=
  ∀ p i o s, t ≤ o → (H o).file p = .ok i → o ≤ s → s ≤ z → 10485760 ≤ ((H s).bytes i).length →
    ∀ v, s ≤ v → v ≤ z → (H v).bytes i = (H s).bytes i

/-- A file that is a file at two moments, with one modification time and one size, is the same all the
time between. -/
def Stamped (H : History) : Prop :=
  ∀ p s u m m', s ≤ u → (H s).stat p = .ok m → (H u).stat p = .ok m' → Unmodified m' m →
    ∃ x, StaysAs H p s u x

/-- The bytes a backup that runs from `t` until `z` should have of a file at `p` with metadata `md`: the
metadata is the file's at a moment, and if the file stays as it is from then on until the end, they are
its bytes. -/
def Recorded (H : History) (t z : Nat) (p : Path) (md : Meta) (x : Bytes) : Prop :=
  ∃ s, t ≤ s ∧ s ≤ z ∧ (H s).stat p = .ok md ∧ ∀ y, StaysAs H p s z y → x = y

/-- That, of all files of a tree. -/
def AllRecorded (H : History) (t z : Nat) : (pathOf : Name → Path) → Dir Bytes → Prop
  | _, .nil => True
  | pathOf, .leaf n md l rest =>
    (∀ x, l = .file x → Recorded H t z (pathOf n) md x) ∧ AllRecorded H t z pathOf rest
  | pathOf, .dir n _ sub rest =>
    AllRecorded H t z (fun m => pathOf n ++ [m]) sub ∧ AllRecorded H t z pathOf rest

/-- The bytes of a file as they were found when it was read or, if it was mapped, hashed. -/
def seenFile : Shot → Bytes
  | .unread x => x
  | .read x => x
  | .mapped l => l.flatMap Piece.hashed

/-- An entry with the bytes found. -/
def seenLeaf : Leaf Shot → Leaf Bytes
  | .file x => .file (seenFile x)
  | .link target => .link target
  | .other => .other

/-- A tree with the bytes found. -/
def seen : Dir Shot → Dir Bytes
  | .nil => .nil
  | .leaf n md l rest => .leaf n md (seenLeaf l) (seen rest)
  | .dir n md sub rest => .dir n md (seen sub) (seen rest)

end Backpak.Spec
