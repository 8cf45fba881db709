import Verif.Model.Diff
import Verif.Spec.Path

/-!
# What a comparison should report

From what is at a path before and after, nothing else.
-/

namespace Backpak.Spec

variable {Id : Type}

/-- A node is replaced by another, not changed: it is something else, or a symlink elsewhere. -/
def Replaced (x y : Node Id) : Prop :=
  x.contents.kind ≠ y.contents.kind ∨ (x.contents.kind = .link ∧ x.contents ≠ y.contents)

/-- The lines there should be for a path, given what is there before and after: `+` for what is
there only after or replaces something, `-` for what is there only before or is replaced, `C` for a
file with different chunks and a letter for a node with different metadata that is otherwise the
same file or symlink, or a directory. -/
def Reports (withMeta : Bool) (before after : Option (Node Id)) : Sign → Node Id → Prop
  | .plus, y => after = some y ∧ ∀ x, before = some x → Replaced x y
  | .minus, x => before = some x ∧ ∀ y, after = some y → Replaced x y
  | .changed, x => before = some x ∧ ∃ y, after = some y ∧ x.contents.kind = .file ∧
      y.contents.kind = .file ∧ x.contents ≠ y.contents
  | .md c, y => withMeta = true ∧ after = some y ∧ ∃ x, before = some x ∧ x.md ≠ y.md ∧ c = metaDiffChar x.md y.md ∧
      (x.contents = y.contents ∨ (x.contents.kind = .dir ∧ y.contents.kind = .dir))

/-- Two forests agree on the trees they share. -/
def Agree [LinearOrder Id] (F1 F2 : Forest Id) : Prop :=
  ∀ id t1 t2, F1.get? id = some t1 → F2.get? id = some t2 → t1 = t2

end Backpak.Spec
