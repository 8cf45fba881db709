import Verif.Model.Source
import Verif.Props.C04

/-!
# The program's own tree encoding as a `Codec`
-/

namespace Backpak

/-- The CBOR encoding of `Verif.Model.Serde` with any hash. -/
def Codec.real (H : Bytes → ObjectId) : Codec ObjectId where
  hash := H
  encTree := Serde.encTree
  decTree := Serde.decTree
  dec_enc t h := by
    have := C04.tree_round_trip t h []
    rwa [List.append_nil] at this
  enc_ne t := by
    have h : ∀ m n, Cbor.head m n ≠ [] := by
      intro m n
      unfold Cbor.head
      repeat' split
      all_goals simp
    simp only [Serde.encTree, Serde.tree, Cbor.enc]
    exact fun he => h _ _ (List.append_eq_nil_iff.mp he).1

end Backpak
