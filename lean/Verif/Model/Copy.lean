import Verif.Model.Repack
import Verif.Model.Backup

/-!
# The copy command (`src/ui/copy.rs`)
-/

namespace Backpak

open Pipeline

variable {Id : Type} [LinearOrder Id]

/-- The snapshots to copy (`src/ui/copy.rs:68-73`). -/
def copySnaps (all : Bool) (snaps : List (Snap ObjectId)) (args : List Bytes) : Res (List (Snap ObjectId)) :=
  if all then .ok snaps else fromArgsList snaps args

/-- The command up to starting its threads, and what it then does (`src/ui/copy.rs:75-163`).
`from_` is the source repository, opened; `dst` the destination, opened; `w` the destination and
the working directory; `snaps` the snapshots to copy, from the source. Progress is left out. -/
def copyPlan (C : Codec Id) (env : CacheEnv Id) (w : World Id) (from_ dst : Source Id)
    (snaps : List (Snap Id)) (filter : Path → Bool) (dry : Bool) : Res (Plan Id) :=
  match loadForests C from_ (newTreeCache C) snaps with
  | .error e => .error e
  | .ok sfs =>
    match Index.blobIds dst.index with
    | .error e => .error e
    | .ok known =>
      match resumeFrom w with
      | .error e => .error e
      | .ok (start, here) =>
        let packed := BMap.keys known ++ listedIds start
        match walkSnapshots C from_ env filter sfs (⟨packed, []⟩, ReaderState.new) with
        | .error e => .error e
        | .ok (news, (s, _)) =>
          .ok ⟨start, (if dry then [] else here.map Op.up) ++ s.sent.map Op.send,
            .ok (if dry then [] else news.map Post.putSnap)⟩

end Backpak
