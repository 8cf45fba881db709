import Verif.Model.Repo

/-!
# Finding an interrupted run's leavings (`src/backup.rs:246-332`)
-/

namespace Backpak

variable {Id : Type} [LinearOrder Id]

/-- `find_cwd_packfiles` (`src/backup.rs:306-332`): the packs in the working directory that the
index lists. The order, that of the directory listing, is here that of the IDs. -/
def findCwdPacks (cwd : Cwd Id) (x : Index Id) : List Id :=
  (BMap.keys cwd.packs).filter (fun p => (x.packs.get? p).isSome)

/-- `find_resumable` (`src/backup.rs:261-304`). -/
def findResumable (w : World Id) : Res (Option (Index Id × List Id)) :=
  match w.cwd.wip with
  | none => .ok none
  | some x =>
    let here := findCwdPacks w.cwd x
    let missing := (BMap.keys x.packs).filter (fun p => !here.contains p)
    if missing.all (fun p => (w.repo.packs.get? p).isSome) then .ok (some (x, here))
    else .error (.err "WIP index file references packfiles not backed up or in the working directory.")

end Backpak
