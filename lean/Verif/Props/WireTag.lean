import Verif.Model.Wire
import Verif.Props.Wire
import Verif.Lemmas.GCM

/-! # The blocks of a tag counted by the wire model are those of the record layer and of GCM -/

namespace Verif.Props.Wire
open Verif.Model

/-- The products of a tag exchanged on the wire (`protocol/aead.h:256-305`) are as many as the blocks GCM hashes, and as the blocks of the
model of the record layer. -/
theorem C93_tag_blocks (aad ctxt : List (BitVec 8)) :
    Wire.tagBlocks ctxt.length aad.length = (Spec.GCM.blocks (Spec.GCM.hashInput aad ctxt)).length ∧
    Wire.tagBlocks ctxt.length aad.length = (AEAD.tagBlocks aad ctxt).length := by
  have h : Wire.tagBlocks ctxt.length aad.length = (AEAD.tagBlocks aad ctxt).length := by
    have len : ∀ (n : Nat) (x : List (BitVec 8)), (blocksOfBytes n x).length = n := by
      intro n
      induction n with
      | zero => intro x; rfl
      | succ n ih => intro x; simp [blocksOfBytes, ih]
    simp only [Wire.tagBlocks, AEAD.tagBlocks, AEAD.tagBuffer, AEAD.padBits, AEAD.lenBytes, len, List.length_reverse, List.length_append,
      List.length_replicate, List.length_map, List.length_range]
    omega
  exact ⟨by rw [h, Lemmas.tagBlocks_eq, List.length_reverse], h⟩

/-- In closed form. -/
theorem C93_tag_blocks_closed (len aad : Nat) : Wire.tagBlocks len aad = (len + 15) / 16 + (aad + 15) / 16 + 1 := by
  simp only [Wire.tagBlocks]
  omega

example : Wire.tagBlocks 17 13 = 4 ∧ Wire.tagBlocks 16 0 = 2 := by decide

end Verif.Props.Wire
