import Verif.Model.Restore

/-!
# A restore that is cut short

A restore that is killed, or that fails because a chunk cannot be read or the disk is full, has made
the first of its calls, and may be midway through one that takes several steps: filling a file
(`src/ui/restore.rs:439-445`) and removing a directory with all it holds (`fs::remove_dir_all`,
`src/ui/restore.rs:366`). The other calls are made or are not.
-/

namespace Backpak

variable {Id : Type} [LinearOrder Id]

/-- Midway through a call: the file has only the first of its bytes; of what is at the path and below,
some is gone, and directories that lost something have new times. -/
inductive Midway (H : Bytes → Id) (src : Source Id) (cenv : CacheEnv Id) (env : FsEnv) (d : Disk Id) :
    SysOp Id → Disk Id → Prop
  | write {p : Path} {cs : List Id} {d' : Disk Id} {x : Bytes} {m : Nat} {t : Int} (n : Nat)
      (done : call H src cenv env (.write p cs) d = (d', none)) (is : d'.fs p = some ⟨.file x, m, t⟩) :
      Midway H src cenv env d (.write p cs) { d' with fs := d'.fs.put p (some ⟨.file (x.take n), m, t⟩) }
  | rmAll {p : Path} {fs : Fs} (dir : Fs.isDir (d.fs p) = true)
      (below : ∀ q, p <+: q → fs q = none ∨ fs q = d.fs q ∨
        (Fs.isDir (d.fs q) = true ∧ ∃ t, fs q = (d.fs q).map (fun o => { o with mtime := t })))
      (others : ∀ q, ¬ p <+: q → fs q = d.fs q) :
      Midway H src cenv env d (.rmAll p) { d with fs := fs }

/-- The disk after the first of the calls, perhaps midway through the next. -/
def CutShort (H : Bytes → Id) (src : Source Id) (cenv : CacheEnv Id) (env : FsEnv) (ops : List (SysOp Id))
    (d dk : Disk Id) : Prop :=
  ∃ a b, ops = a ++ b ∧
    (calls H src cenv env a d = (dk, none) ∨
      ∃ op rest d1, b = op :: rest ∧ calls H src cenv env a d = (d1, none) ∧ Midway H src cenv env d1 op dk)

end Backpak
