import Mathlib.Data.Nat.Notation

/-!
# Types of files

As `inode(7)` numbers them: the four bits of a file's mode above the twelve of its permissions.
-/

namespace Backpak.Spec

inductive FileType
  | directory
  | regular
  | link
  /-- Pipes, devices, sockets, and numbers that mean nothing. -/
  | special (n : ℕ)
deriving DecidableEq

/-- The type of a file with this mode. -/
def fileType (mode : ℕ) : FileType :=
  match mode / 4096 % 16 with
  | 4 => .directory
  | 8 => .regular
  | 10 => .link
  | n => .special n

end Backpak.Spec
