import Verif.Lemmas.AESCircuit
import Verif.Lemmas.GCM

/-!
Properties of the AES circuits (C43): the two circuit files, evaluated gate by gate, compute the key expansion and the cipher
of FIPS 197.
-/

namespace Verif.Props.AESCircuit
open Verif.Model Verif.Model.Integer Verif.Model.AESCircuit Verif.Spec Verif.Spec.Encoding

/-- `computeKS` on the key (as converted by `str_to_int`) computes the FIPS 197 key expansion, whatever the wires held before: the
44 words in order, the bytes of a word in reverse order, every byte most significant bit first. -/
theorem C43_key_schedule (junk : Wires) (key : List Byte) (hk : key.length = 16) :
    computeKS junk (strToInt key) = .ok ((AES.keyExpansion key).flatMap fun w => bytesBits w.reverse) :=
  Lemmas.AESCircuit.ks_compute junk key hk

/-- `computeAES_KS` on any 44 round key words (not only those of an expanded key) and any block computes the FIPS 197 cipher, in
the representation of `str_to_int`. -/
theorem C43_cipher (junk : Wires) (w : List AES.Word) (hw : w.length = 44) (hw4 : ∀ x ∈ w, x.length = 4)
    (msg : List Byte) (hm : msg.length = 16) :
    computeAESKS junk (w.flatMap fun w => bytesBits w.reverse) (strToInt msg) = .ok (strToInt (AES.cipher w msg)) := by
  have h := Lemmas.AESCircuit.enc_compute junk w ⟨hw, hw4⟩ msg hm
  rw [Lemmas.AESCircuit.keyLayout] at h
  rw [computeAESKS, h]
  show Except.ok _ = _
  rw [← Lemmas.strToInt_reverse, List.reverse_reverse]

/-- The two circuits compose to AES-128, for every key and block. -/
theorem C43_aes128 (junk₁ junk₂ : Wires) (key msg : List Byte) (hk : key.length = 16) (hm : msg.length = 16) :
    (do let ek ← computeKS junk₁ (strToInt key); computeAESKS junk₂ ek (strToInt msg))
      = .ok (strToInt (AES.aes128 key msg)) := by
  have hs := Lemmas.AESCircuit.isSchedule_keyExpansion key hk
  have h1 := C43_key_schedule junk₁ key hk
  unfold AES.aes128
  generalize AES.keyExpansion key = w at *
  rw [h1]
  exact C43_cipher junk₂ w hs.1 hs.2 msg hm

/-- AES-128 as a permutation of the blocks of the AEAD model. -/
def aesBlock (key : List Byte) (b : Block) : Block := GCM.blockOf (AES.aes128 key (GCM.bytesOf b))

/-- The function `E` with which the AEAD and AES proof models are parametrised is AES-128: on every 128-bit integer the circuit with the
expanded key gives the value the AEAD model uses. -/
theorem C43_block (junk₁ junk₂ : Wires) (key : List Byte) (hk : key.length = 16) (x : Integer) (hx : x.length = 128) :
    (do let ek ← computeKS junk₁ (strToInt key); computeAESKS junk₂ ek x) = AEAD.aes (aesBlock key) x := by
  obtain ⟨s, hs, rfl⟩ := Lemmas.exists_strToInt x 16 hx
  have hl : (AES.aes128 key s).length = 16 := Lemmas.AESCircuit.length_aes128 key hk s
  rw [C43_aes128 junk₁ junk₂ key s hk hs, AEAD.aes, if_pos hx, aesBlock, Lemmas.blk_strToInt, Lemmas.bytesOf_blockOf _ hs,
    Lemmas.ofNat_block, Lemmas.bytesOf_blockOf _ hl]

/-- Every key schedule of the circuits can be reused: the result does not depend on the previous contents of the wires. -/
example : (do let ek ← computeKS (fun _ => true) (strToInt ((List.range 16).map (BitVec.ofNat 8)))
              computeAESKS (fun x => x % 2 = 0) ek (strToInt ((List.range 16).map fun i => BitVec.ofNat 8 (17 * i))))
    = .ok (strToInt [0x69, 0xc4, 0xe0, 0xd8, 0x6a, 0x7b, 0x04, 0x30, 0xd8, 0xcd, 0xb7, 0x80, 0x70, 0xb4, 0xc5, 0x5a]) := by
  rw [C43_aes128 _ _ _ _ (by simp) (by simp)]
  have : AES.aes128 ((List.range 16).map (BitVec.ofNat 8)) ((List.range 16).map fun i => BitVec.ofNat 8 (17 * i))
      = [0x69, 0xc4, 0xe0, 0xd8, 0x6a, 0x7b, 0x04, 0x30, 0xd8, 0xcd, 0xb7, 0x80, 0x70, 0xb4, 0xc5, 0x5a] := by decide +kernel
  rw [this]

/-- The specification: the exponent form of the inverse is the inverse of the field. -/
theorem C43_spec_inverse : ∀ x : AES.Byte, x ≠ 0 → AES.mul x (AES.inv x) = 1 := by decide +kernel

end Verif.Props.AESCircuit
