import Verif.Model.Check
import Verif.Model.Json
import Verif.Model.Snapshots

/-!
# Printing objects (`src/ui/cat.rs`)

The result is what goes to the standard output. As in `Model/Check`, a repository is its files.
-/

namespace Backpak.Cat

variable (Z : Zstd) (H : Bytes → ObjectId) (O : Serde.OldTime) (T : Clock)

/-- `cat blob` (`src/ui/cat.rs:68-93`). -/
def blob (S : Stored) (id : ObjectId) : Res Bytes :=
  match Check.openIndex Z H S with
  | .error e => .error e
  | .ok ix =>
    match Index.blobToPack ix with
    | .error e => .error e
    | .ok bm =>
      match bm.get? id with
      | none => .error (.err "Can't find blob in the index")
      | some p =>
        match ix.packs.get? p with
        | none => .error (.panic "unwrap on None")
        | some m =>
          match getFile S.packs p with
          | .error e => .error e
          | .ok f =>
            match Pack.extractBlob Z H f id m with
            | .error e => .error e
            | .ok (e, bytes) =>
              if bytes = [] then .error (.panic "assertion failed: !blob.is_empty()")
              else
                match e.kind with
                | .chunk => .ok bytes
                | .tree =>
                  match Serde.decTree bytes with
                  | none => .error (.err "CBOR decoding of tree failed")
                  | some (t, _) => .ok (Json.print (Pretty.tree T t))

/-- `cat pack` (`src/ui/cat.rs:94-97`). -/
def pack (S : Stored) (id : ObjectId) : Res Bytes :=
  match getFile S.packs id with
  | .error e => .error e
  | .ok f =>
    match Pack.loadManifest Z H id f with
    | .error e => .error e
    | .ok m => .ok (Json.print (Pretty.manifest m))

/-- `cat index` (`src/ui/cat.rs:98-101`). -/
def index (S : Stored) (id : ObjectId) : Res Bytes :=
  match getFile S.indexes id with
  | .error e => .error e
  | .ok f =>
    match Check.loadIndex Z H id f with
    | .error e => .error e
    | .ok x => .ok (Json.print (Pretty.index x))

/-- The loads of `load_chronologically` (`src/snapshot.rs:212-230`), in the order given: any failure fails
them all. -/
def loadAll : List (ObjectId × Bytes) → Res (List (Snap ObjectId))
  | [] => .ok []
  | (id, f) :: l =>
    match Check.loadSnapshot H O id f with
    | .error e => .error e
    | .ok s =>
      match loadAll l with
      | .error e => .error e
      | .ok ss => .ok ((s, id) :: ss)

/-- `cat snapshot` (`src/ui/cat.rs:102-106`). -/
def snapshot (S : Stored) (name : Bytes) : Res Bytes :=
  match loadAll H O S.snapshots with
  | .error e => .error e
  | .ok loaded =>
    match findSnap (loadChronologically loaded) name with
    | .error e => .error e
    | .ok s => .ok (Json.print (Pretty.snapshot T s.1))

end Backpak.Cat
