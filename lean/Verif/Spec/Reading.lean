import Verif.Model.Source

/-!
# Reading packs one after another

Packs can come and go while a command reads them. What a command does is then not determined by what is in the
repository at one moment, but by what is there each time it reads a pack.
-/

namespace Backpak.Spec

variable {Id A B : Type}

/-- A program that reads packs one after another: it is done, or it reads a pack, and what it does next depends on what
it got. If it cannot read the pack it stops. -/
inductive Reading (Id A : Type)
  | done (a : A)
  | read (p : Id) (next : Stream → Reading Id A) (stop : Fail → A)

namespace Reading

/-- What it comes to if the packs stay as they are. -/
def run (f : Id → Res Stream) : Reading Id A → A
  | .done a => a
  | .read p next stop =>
    match f p with
    | .ok s => (next s).run f
    | .error e => stop e

/-- What it comes to if `f n` is what can be read the `n`th time. -/
def runOver (f : Nat → Id → Res Stream) : Nat → Reading Id A → A
  | _, .done a => a
  | n, .read p next stop =>
    match f n p with
    | .ok s => (next s).runOver f (n + 1)
    | .error e => stop e

/-- It reads no packs but those in `P`, and what it comes to when it cannot read one is a failure. -/
inductive Careful (P : Id → Prop) (Bad : A → Prop) : Reading Id A → Prop
  | done (a : A) : Careful P Bad (.done a)
  | read {p next stop} : P p → (∀ s, Careful P Bad (next s)) → (∀ e, Bad (stop e)) → Careful P Bad (.read p next stop)

end Reading

/-- A failure. -/
def Failed {A : Type} (r : Res A) : Prop := ∃ e, r = .error e

/-- `T` does what `cmd` does on packs that stay as they are, and is careful. -/
structure Does (P : Id → Prop) (Bad : A → Prop) (cmd : (Id → Res Stream) → A) (T : Reading Id A) : Prop where
  careful : T.Careful P Bad
  same : ∀ f, T.run f = cmd f

end Backpak.Spec
