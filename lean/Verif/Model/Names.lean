import Verif.Model.Hashing

/-!
# The names of objects (`src/backend.rs:345-366,434-454`)
-/

namespace Backpak

namespace Names

/-- Split at every occurrence of a byte. -/
def split (c : UInt8) : Bytes → List Bytes
  | [] => [[]]
  | x :: xs =>
    if x = c then [] :: split c xs
    else match split c xs with
      | [] => [[x]]
      | h :: t => (x :: h) :: t

/-- `Utf8Path::file_name`: the last component, if it is a name. Empty components and `.` do not
count. -/
def fileName (p : Bytes) : Option Bytes :=
  match ((split 47 p).filter (fun c => c ≠ [] ∧ c ≠ [46])).getLast? with
  | none => none
  | some n => if n = [46, 46] then none else some n

/-- What is before and after the last dot of a file name, if there is one that is not its first
character (`std::path`'s `rsplit_file_at_dot`). -/
def atDot (n : Bytes) : Bytes × Option Bytes :=
  match (split 46 n).getLast?, (split 46 n).dropLast with
  | some e, b :: bs =>
    let before := List.intercalate [46] (b :: bs)
    if before = [] then (n, none) else (before, some e)
  | _, _ => (n, none)

/-- `Utf8Path::extension` -/
def extension (p : Bytes) : Option Bytes := (fileName p).bind fun n => (atDot n).2

/-- `Utf8Path::file_stem` -/
def fileStem (p : Bytes) : Option Bytes := (fileName p).map fun n => (atDot n).1

end Names

/-- The kinds of objects there are in a repository. -/
inductive Shelf
  | pack
  | index
  | snapshot
deriving DecidableEq, Repr

/-- The extension of a kind of object, and the directory it is kept in. -/
def Shelf.ext : Shelf → Bytes
  | .pack => ascii "pack"
  | .index => ascii "index"
  | .snapshot => ascii "snapshot"

def Shelf.dir : Shelf → Bytes
  | .pack => ascii "packs/"
  | .index => ascii "indexes/"
  | .snapshot => ascii "snapshots/"

/-- The name of an object: `{id}.pack` and so on (`src/backend.rs:305-342`). -/
def objectName (k : Shelf) (id : ObjectId) : Bytes := id.display ++ 46 :: k.ext

/-- `destination` (`src/backend.rs:434-442`). -/
def destination (src : Bytes) : Res Bytes :=
  match Names.extension src with
  | some e =>
    if e = ascii "pack" then .ok (ascii "packs/" ++ src)
    else if e = ascii "index" then .ok (ascii "indexes/" ++ src)
    else if e = ascii "snapshot" then .ok (ascii "snapshots/" ++ src)
    else .error (.panic "Unexpected extension on file")
  | none => .error (.panic "Unexpected extension on file")

/-- `id_from_path` (`src/backend.rs:446-452`). -/
def idFromPath (p : Bytes) : Res ObjectId :=
  match Names.fileStem p with
  | none => .error (.err "Couldn't determine ID")
  | some s =>
    match ObjectId.parse s with
    | none => .error (.err "Couldn't decode ID")
    | some id => .ok id

/-- `probe_pack` (`src/backend.rs:346-363`). -/
def probePack (packs : List (Bytes × Nat)) (id : ObjectId) : Res Unit :=
  match ((packs.map Prod.fst).filter (fun s => s = ascii "packs/" ++ (id.display ++ ascii ".pack"))).length with
  | 0 => .error (.err "Couldn't find pack")
  | 1 => .ok ()
  | _ => .error (.panic "Expected one pack, found several!")

end Backpak
