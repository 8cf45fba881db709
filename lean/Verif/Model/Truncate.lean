import Verif.Model.Basic

/-!
# The path shown while a command runs (`truncate_path`, `src/progress.rs:191-214`)

A text is the list of its grapheme clusters; how wide each is drawn is not represented, nor that one may combine with
what it is put next to.
-/

namespace Backpak.Shown

/-- `a - b` of type `usize`. -/
def usub (checked : Bool) (a b : Nat) : Res Nat :=
  if b ≤ a then .ok (a - b)
  else if checked then .error (.panic "attempt to subtract with overflow")
  else .ok (a + 2 ^ 64 - b)

/-- `a + b` of type `usize`. -/
def uadd (checked : Bool) (a b : Nat) : Res Nat :=
  if a + b < 2 ^ 64 then .ok (a + b)
  else if checked then .error (.panic "attempt to add with overflow")
  else .ok ((a + b) % 2 ^ 64)

/-- `&l[k..]` -/
def sliceFrom {γ : Type} (l : List γ) (k : Nat) : Res (List γ) :=
  if k ≤ l.length then .ok (l.drop k) else .error (.panic "range start index out of range for slice")

/-- `&l[..k]` -/
def sliceTo {γ : Type} (l : List γ) (k : Nat) : Res (List γ) :=
  if k ≤ l.length then .ok (l.take k) else .error (.panic "range end index out of range for slice")

/-- `truncate_path`, of a path with these symbols and this file name, for a terminal that is `w` wide. With `checked`
arithmetic that overflows panics, as in builds that are not for release. -/
def truncate {γ : Type} (dot : γ) (checked : Bool) (syms : List γ) (name : Option (List γ)) (w : Nat) : Res (List γ) :=
  if w ≤ 3 then .ok (List.replicate w dot)
  else if syms.length ≤ w then .ok syms
  else
    match name with
    | none => .error (.panic "called `Option::unwrap()` on a `None` value")
    | some back =>
      if w - 3 ≤ back.length then
        match usub checked back.length w with
        | .error e => .error e
        | .ok k =>
          match uadd checked k 3 with
          | .error e => .error e
          | .ok k =>
            match sliceFrom back k with
            | .error e => .error e
            | .ok tail => .ok ([dot, dot, dot] ++ tail)
      else
        match sliceTo syms (w - back.length - 3) with
        | .error e => .error e
        | .ok front => .ok (front ++ [dot, dot, dot] ++ back)

end Backpak.Shown
