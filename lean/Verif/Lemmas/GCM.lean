import Verif.Spec.GCM
import Mathlib.Data.List.GetD
import Verif.Model.AEAD
import Verif.Lemmas.Encoding
import Verif.Lemmas.BlockConv
import Verif.Lemmas.GFPow

/-! Byte, block and counter facts about the model of `protocol/aead.h`. -/

namespace Verif.Lemmas
open Verif.Model Verif.Model.Integer Verif.Model.AEAD Verif.Spec.Encoding
open Verif.Spec (GCM.blockOf GCM.bytesOf GCM.inc32)

theorem blockOf_eq (l : List Byte) : GCM.blockOf l = blockOfBytes l.reverse := by
  rw [GCM.blockOf, blockOfBytes, List.foldr_reverse]

theorem bytesOf_eq (b : Block) : GCM.bytesOf b = (blockBytes b).reverse := by
  apply List.ext_getElem
  · simp [GCM.bytesOf]
  · intro i h1 h2
    simp only [GCM.bytesOf, List.length_map, List.length_range] at h1
    simp only [GCM.bytesOf, List.getElem_map, List.getElem_range, List.getElem_reverse, getElem_blockBytes]
    apply BitVec.eq_of_getLsbD_eq; intro k hk
    have : (blockBytes b).length - 1 - i = 15 - i := by simp
    rw [this]
    simp [BitVec.getLsbD_extractLsb']

theorem blockToTag_eq (b : Block) : blockToTag b = GCM.bytesOf b := (bytesOf_eq b).symm

@[simp] theorem length_bytesOf (b : Block) : (GCM.bytesOf b).length = 16 := by simp [GCM.bytesOf]

theorem blockOf_bytesOf (b : Block) : GCM.blockOf (GCM.bytesOf b) = b := by
  rw [blockOf_eq, bytesOf_eq, List.reverse_reverse, blockOfBytes_blockBytes]

theorem bytesOf_blockOf (l : List Byte) (h : l.length = 16) : GCM.bytesOf (GCM.blockOf l) = l := by
  rw [blockOf_eq, bytesOf_eq, blockBytes_blockOfBytes _ (by simpa using h), List.reverse_reverse]

theorem bytesOf_inj {a b : Block} (h : GCM.bytesOf a = GCM.bytesOf b) : a = b := by
  rw [← blockOf_bytesOf a, h, blockOf_bytesOf]

theorem strToInt_append (a b : List Byte) : strToInt (a ++ b) = strToInt b ++ strToInt a := by
  simp [strToInt, ofBytes, List.reverse_append]

@[simp] theorem length_strToInt (a : List Byte) : (strToInt a).length = 8 * a.length := by simp [strToInt]

theorem getD_ofBytes (l : List Byte) (i : Nat) :
    (ofBytes l).getD i false = (l.getD (i / 8) 0#8).getLsbD (i % 8) := by
  induction l generalizing i with
  | nil => simp [ofBytes]
  | cons x xs ih =>
    have e : ofBytes (x :: xs) = ofNat 8 x.toNat ++ ofBytes xs := rfl
    rw [e]
    by_cases h : i < 8
    · have h0 : i / 8 = 0 := by omega
      have h1 : i % 8 = i := by omega
      rw [h0, h1, List.getD_append _ _ _ _ (by simpa using h)]
      rw [List.getD_eq_getElem _ _ (by simpa using h), getElem_ofNat]
      rfl
    · rw [List.getD_append_right _ _ _ _ (by simpa using h), length_ofNat, ih]
      have h0 : i / 8 = (i - 8) / 8 + 1 := by omega
      have h1 : i % 8 = (i - 8) % 8 := by omega
      rw [h0, h1, List.getD_cons_succ]

theorem blk_ofBytes (l : List Byte) : blk (ofBytes l) = blockOfBytes l := by
  apply BitVec.eq_of_getLsbD_eq; intro i hi
  rw [blk, BitVec.getLsbD_ofNat, testBit_val, getD_ofBytes, getLsbD_blockOfBytes]

theorem blk_strToInt (l : List Byte) : blk (strToInt l) = GCM.blockOf l := by
  rw [blockOf_eq, strToInt, blk_ofBytes]

theorem blk_ofNat (b : Block) : blk (ofNat 128 b.toNat) = b := by
  rw [blk, val_ofNat]
  apply BitVec.eq_of_toNat_eq
  simp [Nat.mod_eq_of_lt b.isLt]

theorem blk_inj {x y : Integer} (hx : x.length = 128) (hy : y.length = 128) (h : blk x = blk y) : x = y := by
  apply val_inj (by omega)
  have := congrArg BitVec.toNat h
  have l1 := val_lt x
  have l2 := val_lt y
  rw [hx] at l1; rw [hy] at l2
  rw [blk, blk, BitVec.toNat_ofNat, BitVec.toNat_ofNat, Nat.mod_eq_of_lt l1, Nat.mod_eq_of_lt l2] at this
  exact this

theorem ofNat_block (b : Block) : ofNat 128 b.toNat = strToInt (GCM.bytesOf b) := by
  apply blk_inj (by simp) (by simp)
  rw [blk_ofNat, blk_strToInt, blockOf_bytesOf]

theorem integerToBlock_eq (x : Integer) (h : x.length = 128) : integerToBlock x = .ok (blk x) := by
  obtain ⟨b, h1, h2⟩ := integerToBlock_spec x h
  rw [h1]
  congr 1
  apply BitVec.eq_of_getLsbD_eq; intro i hi
  rw [h2 i hi, blk, BitVec.getLsbD_ofNat, testBit_val]
  simp [hi]

theorem blk_xor (x y : Integer) (hx : x.length = 128) (hy : y.length = 128) :
    blk (Integer.xor x y) = blk x ^^^ blk y := by
  apply BitVec.eq_of_getLsbD_eq; intro i hi
  have e : (Integer.xor x y).getD i false = (x.getD i false ^^ y.getD i false) := by
    unfold Integer.xor
    have h1 : i < (List.zipWith Bool.xor x y).length := by simp; omega
    rw [List.getD_eq_getElem _ _ h1, List.getD_eq_getElem _ _ (by omega), List.getD_eq_getElem _ _ (by omega)]
    simp
  rw [BitVec.getLsbD_xor, blk, blk, blk, BitVec.getLsbD_ofNat, BitVec.getLsbD_ofNat, BitVec.getLsbD_ofNat,
    testBit_val, testBit_val, testBit_val, e]
  simp [hi]

theorem toNat_inc32 (b : Block) :
    (GCM.inc32 b).toNat = b.toNat / 2 ^ 32 * 2 ^ 32 + (b.toNat % 2 ^ 32 + 1) % 2 ^ 32 := by
  rw [GCM.inc32, BitVec.toNat_append, ← Nat.shiftLeft_add_eq_or_of_lt (BitVec.isLt _), Nat.shiftLeft_eq]
  simp only [BitVec.extractLsb'_toNat, BitVec.toNat_add, BitVec.toNat_ofNat, Nat.shiftRight_zero]
  have hb := b.isLt
  have e1 : (b.toNat >>> 32) % 2 ^ 96 = b.toNat / 2 ^ 32 := by
    rw [Nat.shiftRight_eq_div_pow]
    apply Nat.mod_eq_of_lt
    omega
  rw [e1]

/-- `inc(·, 32)` is `inc_32`. -/
theorem inc_eq (x : Integer) (h : x.length = 128) :
    ∃ y, inc x 32 = .ok y ∧ y.length = 128 ∧ blk y = GCM.inc32 (blk x) := by
  refine ⟨_, by rw [inc, if_neg (by omega)], ?_, ?_⟩
  · rw [concat_eq]; simp [add]; omega
  · apply BitVec.eq_of_toNat_eq
    rw [toNat_inc32, concat_eq]
    have hx := val_lt x
    rw [h] at hx
    have hs : x = x.take 32 ++ x.drop 32 := (List.take_append_drop 32 x).symm
    have hv : val x = val (x.take 32) + 2 ^ 32 * val (x.drop 32) := by
      conv_lhs => rw [hs, val_append]
      simp [h]
    have ht := val_lt (x.take 32)
    have hl : (x.take 32).length = 32 := by simp [h]
    have hd := val_lt (x.drop 32)
    have hl2 : (x.drop 32).length = 96 := by simp [h]
    rw [hl] at ht
    rw [hl2] at hd
    simp only [blk, BitVec.toNat_ofNat, List.reverse_cons, List.reverse_nil, List.nil_append, List.flatten_cons,
      List.flatten_nil, List.append_nil, val_append, add, val_ofNat, length_ofNat, hl]
    omega

/-! ### Key stream -/

theorem counter_inc (j : Block) (i : Nat) :
    Spec.GCM.counter (GCM.inc32 j) i = Spec.GCM.counter j (i + 1) := by
  induction i with
  | zero => rfl
  | succ i ih => rw [Spec.GCM.counter, ih]; rfl

/-- The bytes of the encryptions of `m` consecutive counter blocks. -/
def ctrBytes (E : Block → Block) (j : Block) (m : Nat) : List Byte :=
  (List.range m).flatMap fun i => GCM.bytesOf (E (Spec.GCM.counter j i))

theorem ctrBytes_succ (E : Block → Block) (j : Block) (m : Nat) :
    ctrBytes E j (m + 1) = GCM.bytesOf (E j) ++ ctrBytes E (GCM.inc32 j) m := by
  rw [ctrBytes, List.range_succ_eq_map, List.flatMap_cons, List.flatMap_map]
  simp only [counter_inc, ctrBytes]
  rfl

@[simp] theorem length_ctrBytes (E : Block → Block) (j : Block) (m : Nat) : (ctrBytes E j m).length = 16 * m := by
  induction m generalizing j with
  | zero => rfl
  | succ m ih => rw [ctrBytes_succ, List.length_append, ih, length_bytesOf]; omega

theorem gctr_eq (E : Block → Block) (m : Nat) (l : List Byte) (nonce : Integer) (h : nonce.length = 128) :
    ∃ nonce', gctr E m (strToInt l) nonce = .ok (strToInt (l ++ ctrBytes E (blk nonce) m), nonce')
      ∧ nonce'.length = 128 ∧ blk nonce' = Spec.GCM.counter (blk nonce) m := by
  induction m generalizing l nonce with
  | zero => exact ⟨nonce, by simp [gctr, ctrBytes], h, rfl⟩
  | succ m ih =>
    obtain ⟨y, h1, h2, h3⟩ := inc_eq nonce h
    obtain ⟨n', g1, g2, g3⟩ := ih (l ++ GCM.bytesOf (E (blk nonce))) y h2
    refine ⟨n', ?_, g2, ?_⟩
    · rw [gctr, aes, if_pos h, h1]
      have e : concat (strToInt l) [ofNat 128 (E (blk nonce)).toNat]
          = strToInt (l ++ GCM.bytesOf (E (blk nonce))) := by
        rw [concat_eq, ofNat_block, strToInt_append]; simp
      show gctr E m (concat (strToInt l) [ofNat 128 (E (blk nonce)).toNat]) y = _
      rw [e, g1, h3, ctrBytes_succ, List.append_assoc]
    · rw [g3, h3, counter_inc]

theorem setNonce_eq (fiv iv : List Byte) (h : iv.length = 8) :
    setNonce (strToInt fiv) iv = .ok (strToInt (fiv ++ iv ++ [0#8, 0#8, 0#8, 1#8])) := by
  rw [setNonce, if_neg (by simp [h]), concat_eq, concat_eq, strToInt_append, strToInt_append]
  have : ofNat 32 1 = strToInt [0#8, 0#8, 0#8, 1#8] := by decide
  rw [this]
  simp [strToInt]

theorem ctrLen_eq (n : Nat) : ctrLen n = (n + 15) / 16 := by unfold ctrLen; omega

theorem padBits_eq (n : Nat) : padBits n = 8 * ((16 - n % 16) % 16) := by unfold padBits; omega

theorem padBits_total (n : Nat) : 16 * ctrLen n = n + padBits n / 8 := by unfold ctrLen padBits; omega

theorem keyStream_eq (E : Block → Block) (j : Block) (n : Nat) :
    Spec.GCM.keyStream E j n = (ctrBytes E (GCM.inc32 j) (ctrLen n)).take n := by
  rw [ctrLen_eq]; rfl

@[simp] theorem length_keyStream (E : Block → Block) (j : Block) (n : Nat) :
    (Spec.GCM.keyStream E j n).length = n := by
  rw [keyStream_eq, List.length_take, length_ctrBytes, ctrLen_eq]; omega

/-- The two erasures of `encrypt` and `decrypt`. -/
def cutZ (n : Nat) (x : Integer) : Integer := (x.take (x.length - 128)).drop (padBits n)
/-- The most significant 128 bits. -/
def topZ (x : Integer) : Integer := x.drop (x.length - 128)

theorem cutZ_stream (E : Block → Block) (j : Block) (n : Nat) :
    cutZ n (strToInt (ctrBytes E j (1 + ctrLen n))) = strToInt (Spec.GCM.keyStream E j n) := by
  have e : padBits n = 8 * (16 * ctrLen n - n) := by
    have := padBits_total n
    have := padBits_eq n
    omega
  have hle : n ≤ 16 * ctrLen n := by have := padBits_total n; omega
  rw [cutZ, Nat.add_comm 1, ctrBytes_succ, strToInt_append]
  have l1 : (strToInt (ctrBytes E (GCM.inc32 j) (ctrLen n)) ++ strToInt (GCM.bytesOf (E j))).length - 128
      = (strToInt (ctrBytes E (GCM.inc32 j) (ctrLen n))).length := by simp
  rw [l1, List.take_left' rfl, keyStream_eq]
  conv_lhs => rw [← List.take_append_drop n (ctrBytes E (GCM.inc32 j) (ctrLen n)), strToInt_append]
  rw [List.drop_left']
  simp [e]

theorem topZ_stream (E : Block → Block) (j : Block) (n : Nat) :
    topZ (strToInt (ctrBytes E j (1 + ctrLen n))) = strToInt (GCM.bytesOf (E j)) := by
  rw [topZ, Nat.add_comm 1, ctrBytes_succ, strToInt_append, List.drop_left']
  simp

theorem share_length (m : Nat → Bool) (v : Integer) : (share m v).1.length = v.length ∧ (share m v).2.length = v.length := by
  simp [share, Integer.xor]

theorem cutZ_xor (n : Nat) (x y : Integer) (h : x.length = y.length) :
    cutZ n (Integer.xor x y) = Integer.xor (cutZ n x) (cutZ n y) := by
  unfold cutZ Integer.xor
  rw [List.take_zipWith, List.drop_zipWith]
  simp [h]

theorem topZ_xor (x y : Integer) (h : x.length = y.length) :
    topZ (Integer.xor x y) = Integer.xor (topZ x) (topZ y) := by
  unfold topZ Integer.xor
  rw [List.drop_zipWith]
  simp [h]

/-- The specification of `stream`. -/
theorem stream_eq (st : State) (fiv iv : List Byte) (n : Nat) (m : Nat → Bool) (hf : st.fixedIv = strToInt fiv)
    (hf4 : fiv.length = 4) (hiv : iv.length = 8) :
    ∃ nonce sA z0A z0B,
      stream st iv n m = .ok ({ st with nonce := nonce, gcZ0A := st.gcZ0A ++ [z0A], gcZ0B := st.gcZ0B ++ [z0B],
                                        zkZ0 := st.zkZ0 ++ [ofBytes (blockBytes z0A)] },
        strToInt (Spec.GCM.keyStream st.E (Spec.GCM.j0 (fiv ++ iv)) n),
        (sA, Integer.xor sA (strToInt (Spec.GCM.keyStream st.E (Spec.GCM.j0 (fiv ++ iv)) n))), z0A, z0B)
      ∧ sA.length = 8 * n ∧ z0A ^^^ z0B = st.E (Spec.GCM.j0 (fiv ++ iv)) := by
  obtain ⟨nonce, g1, -, -⟩ := gctr_eq st.E (1 + ctrLen n) [] (strToInt (fiv ++ iv ++ [0#8, 0#8, 0#8, 1#8]))
    (by simp [hf4, hiv])
  rw [blk_strToInt, List.nil_append] at g1
  change gctr st.E (1 + ctrLen n) [] _ = .ok (strToInt (ctrBytes st.E (Spec.GCM.j0 (fiv ++ iv)) (1 + ctrLen n)), nonce) at g1
  generalize hj : Spec.GCM.j0 (fiv ++ iv) = j at g1 ⊢
  generalize hZ : strToInt (ctrBytes st.E j (1 + ctrLen n)) = Z at g1
  have hc := cutZ_stream st.E j n
  have ht := topZ_stream st.E j n
  rw [hZ] at hc ht
  have hZl : Z.length = 8 * (16 * (1 + ctrLen n)) := by rw [← hZ]; simp
  have hl := share_length m Z
  have hsl : (share m Z).1.length = Z.length := hl.1
  have t1 : (topZ (share m Z).1).length = 128 := by simp [topZ, hsl]; omega
  have t2 : (topZ (share m Z).2).length = 128 := by simp [topZ, hl.2]; omega
  have hs2 : (share m Z).2 = Integer.xor (share m Z).1 Z := rfl
  refine ⟨nonce, cutZ n (share m Z).1, blk (topZ (share m Z).1), blk (topZ (share m Z).2), ?_, ?_, ?_⟩
  · have i1 := integerToBlock_eq _ t1
    have i2 := integerToBlock_eq _ t2
    unfold topZ at i1 i2
    simp only [stream, hf, setNonce_eq fiv iv hiv, bind, Except.bind, g1, i1, i2]
    rw [← hc, ← cutZ_xor _ _ _ hsl, ← hs2]
    rfl
  · have := padBits_total n
    have := padBits_eq n
    simp [cutZ, hsl, hZl]; omega
  · rw [hs2, topZ_xor _ _ hsl, blk_xor _ _ t1 (by rw [ht]; simp), ht, blk_strToInt, blockOf_bytesOf,
      ← BitVec.xor_assoc, BitVec.xor_self, BitVec.zero_xor]

/-! ### Byte strings -/

theorem byte_xor_bits (x y : Byte) : ofNat 8 (x ^^^ y).toNat = Integer.xor (ofNat 8 x.toNat) (ofNat 8 y.toNat) := by
  apply List.ext_getElem
  · simp [Integer.xor]
  · intro i h1 h2
    simp [Integer.xor, getElem_ofNat, Nat.testBit_xor]

theorem ofBytes_xor (a b : List Byte) (h : a.length = b.length) :
    ofBytes (xorBytes a b) = Integer.xor (ofBytes a) (ofBytes b) := by
  induction a generalizing b with
  | nil => simp [xorBytes, ofBytes, Integer.xor]
  | cons x xs ih =>
    match b, h with
    | y :: ys, h =>
      have e1 : ofBytes (xorBytes (x :: xs) (y :: ys)) = ofNat 8 (x ^^^ y).toNat ++ ofBytes (xorBytes xs ys) := rfl
      have e2 : ofBytes (x :: xs) = ofNat 8 x.toNat ++ ofBytes xs := rfl
      have e3 : ofBytes (y :: ys) = ofNat 8 y.toNat ++ ofBytes ys := rfl
      rw [e1, e2, e3, xor_append (by simp), ih ys (by simpa using h), byte_xor_bits]

theorem strToInt_xor (a b : List Byte) (h : a.length = b.length) :
    strToInt (xorBytes a b) = Integer.xor (strToInt a) (strToInt b) := by
  unfold strToInt
  rw [← ofBytes_xor _ _ (by simpa using h)]
  congr 1
  unfold xorBytes
  rw [← List.reverse_zipWith h]

@[simp] theorem length_xorBytes (a b : List Byte) : (xorBytes a b).length = min a.length b.length := by
  simp [xorBytes]

theorem xorBytes_cancel (a z k : List Byte) (h1 : z.length = a.length) (h2 : k.length = a.length) :
    xorBytes (xorBytes a z) (xorBytes z k) = xorBytes a k := by
  apply List.ext_getElem
  · simp [h1, h2]
  · intro i g1 g2
    have g3 : i < z.length := by simp [h2] at g2; omega
    simp only [xorBytes, List.getElem_zipWith]
    generalize z[i] = zi
    rw [BitVec.xor_assoc, ← BitVec.xor_assoc zi, BitVec.xor_self, BitVec.zero_xor]

theorem xorBytes_cancel' (a z k : List Byte) (h1 : z.length = a.length) (h2 : k.length = a.length) :
    xorBytes (xorBytes (xorBytes z k) z) a = xorBytes a k := by
  apply List.ext_getElem
  · simp [h1, h2]
  · intro i g1 g2
    have g3 : i < z.length := by simp [h2] at g2; omega
    simp only [xorBytes, List.getElem_zipWith]
    generalize z[i] = zi
    rw [BitVec.xor_comm zi, BitVec.xor_assoc, BitVec.xor_assoc, ← BitVec.xor_assoc zi, BitVec.xor_self,
      BitVec.zero_xor, BitVec.xor_comm]

theorem xorBytes_twice (a k : List Byte) (h : k.length = a.length) : xorBytes (xorBytes a k) k = a := by
  apply List.ext_getElem
  · simp [h]
  · intro i g1 g2
    simp only [xorBytes, List.getElem_zipWith]
    rw [BitVec.xor_assoc, BitVec.xor_self, BitVec.xor_zero]

theorem integerToChars_strToInt (s : List Byte) : integerToChars (strToInt s) = .ok s := by
  obtain ⟨l, h1, h2⟩ := integerToChars_bits (strToInt s) (by simp)
  rw [strToInt_reverse] at h2
  rw [h1, bytesBits_inj h2]

theorem exists_strToInt (x : Integer) (n : Nat) (h : x.length = 8 * n) : ∃ s, s.length = n ∧ x = strToInt s := by
  obtain ⟨l, -, h2⟩ := integerToChars_bits x (by omega)
  rw [← strToInt_reverse] at h2
  have := List.reverse_inj.1 h2
  refine ⟨l, ?_, this.symm⟩
  have := congrArg List.length this
  simp at this; omega

/-! ### The tag buffer -/

theorem lenBytes_eq (n : Nat) : lenBytes n = Spec.GCM.be64 (8 * n) := by
  unfold lenBytes Spec.GCM.be64
  apply List.map_congr_left
  intro i hi
  apply BitVec.eq_of_toNat_eq
  have hi' : i < 8 := by simpa using hi
  simp only [BitVec.toNat_setWidth, BitVec.toNat_ushiftRight, BitVec.toNat_ofNat, Nat.shiftRight_eq_div_pow]
  have : i = 0 ∨ i = 1 ∨ i = 2 ∨ i = 3 ∨ i = 4 ∨ i = 5 ∨ i = 6 ∨ i = 7 := by omega
  rcases this with rfl | rfl | rfl | rfl | rfl | rfl | rfl | rfl <;> norm_num <;> omega

theorem tagBuffer_eq (aad ctxt : List Byte) : tagBuffer aad ctxt = Spec.GCM.hashInput aad ctxt := by
  unfold tagBuffer Spec.GCM.hashInput Spec.GCM.pad
  rw [lenBytes_eq, lenBytes_eq, padBits_eq, padBits_eq, Nat.mul_div_cancel_left _ (by norm_num),
    Nat.mul_div_cancel_left _ (by norm_num)]
  simp only [List.append_assoc]
  rfl

theorem length_hashInput (a c : List Byte) : (Spec.GCM.hashInput a c).length % 16 = 0 := by
  simp only [Spec.GCM.hashInput, Spec.GCM.pad, Spec.GCM.be64, List.length_append, List.length_replicate,
    List.length_map, List.length_range]
  omega

theorem blocksOfBytes_eq (n : Nat) (l : List Byte) :
    blocksOfBytes n l = (List.range n).map fun i => blockOfBytes ((l.drop (16 * i)).take 16) := by
  induction n generalizing l with
  | zero => rfl
  | succ n ih =>
    rw [blocksOfBytes, ih, List.range_succ_eq_map, List.map_cons, List.map_map]
    congr 1
    apply List.map_congr_left
    intro i _
    simp only [Function.comp, List.drop_drop]
    congr 2; rw [show 16 * (i + 1) = 16 + 16 * i by omega]

theorem blocksOfBytes_reverse (l : List Byte) (h : l.length % 16 = 0) :
    blocksOfBytes (l.length / 16) l.reverse = (Spec.GCM.blocks l).reverse := by
  rw [blocksOfBytes_eq, Spec.GCM.blocks]
  apply List.ext_getElem
  · simp
  · intro i h1 h2
    simp only [List.length_map, List.length_range] at h1
    simp only [List.getElem_map, List.getElem_range, List.getElem_reverse, List.length_map, List.length_range,
      blockOf_eq]
    congr 1
    rw [List.drop_reverse, List.take_reverse]
    congr 1
    rw [List.length_take]
    have e : min (l.length - 16 * i) l.length - 16 = 16 * (l.length / 16 - 1 - i) := by omega
    rw [e, List.drop_take]
    congr 1
    omega

theorem tagBlocks_eq (aad ctxt : List Byte) :
    tagBlocks aad ctxt = (Spec.GCM.blocks (Spec.GCM.hashInput aad ctxt)).reverse := by
  unfold tagBlocks
  rw [tagBuffer_eq]
  simp only [List.length_reverse]
  have e : 8 * (Spec.GCM.hashInput aad ctxt).length / 128 = (Spec.GCM.hashInput aad ctxt).length / 16 := by omega
  rw [e, blocksOfBytes_reverse _ (length_hashInput aad ctxt)]

/-! ### Joint GHASH -/

/-- The powers `a, a^2, ..., a^k`. -/
def powers (a : F128) (k : Nat) : List Block := (List.range k).map fun i => (a ^ (i + 1)).val

@[simp] theorem length_powers (a : F128) (k : Nat) : (powers a k).length = k := by simp [powers]

theorem powers_succ (a : F128) (k : Nat) : powers a (k + 1) = powers a k ++ [(a ^ (k + 1)).val] := by
  simp [powers, List.range_succ]

theorem extend_powers (a : F128) (d k : Nat) : extend a.val d (powers a (k + 1)) = powers a (k + 1 + d) := by
  induction d generalizing k with
  | zero => rfl
  | succ d ih =>
    rw [extend]
    have : mulBlock a.val ((powers a (k + 1)).getLastD 0) = (a ^ (k + 1 + 1)).val := by
      rw [powers_succ, List.getLastD_concat, pow_succ' a (k + 1)]; rfl
    rw [this, ← powers_succ, ih, show k + 1 + 1 + d = k + 1 + (d + 1) by omega]

/-- Sum of the elements as field elements. -/
def sumF (l : List Block) : F128 := (l.map F128.mk).sum

theorem xorAll_eq (l : List Block) : xorAll l = (sumF l).val := by
  have key : ∀ (l : List Block) (a : F128), l.foldl (· ^^^ ·) a.val = (a + sumF l).val := by
    intro l
    induction l with
    | nil => intro a; simp [sumF]
    | cons x xs ih =>
      intro a
      have := ih (a + ⟨x⟩)
      simp only [List.foldl_cons]
      rw [F128.add_val] at this
      rw [this]
      simp [sumF, BitVec.xor_assoc]
  have := key l 0
  rw [zero_add] at this
  exact this

theorem sumF_zipWith_xor (a b : List Block) (h : a.length = b.length) :
    sumF (List.zipWith (· ^^^ ·) a b) = sumF a + sumF b := by
  induction a generalizing b with
  | nil =>
    match b, h with
    | [], _ => simp [sumF]
  | cons x xs ih =>
    match b, h with
    | y :: ys, h =>
      have := ih ys (by simpa using h)
      simp only [sumF, List.zipWith_cons_cons, List.map_cons, List.sum_cons] at this ⊢
      rw [this]
      have e : F128.mk (x ^^^ y) = F128.mk x + F128.mk y := rfl
      rw [e]; ring

/-- `Σ x_i h^(k+i+1)`. -/
def polySum (h : F128) : Nat → List Block → F128
  | _, [] => 0
  | k, x :: xs => ⟨x⟩ * h ^ (k + 1) + polySum h (k + 1) xs

theorem hornerSum_append (h : F128) (xs : List Block) (x : Block) :
    hornerSum h (xs ++ [x]) = hornerSum h xs * h + ⟨x⟩ * h := by
  induction xs with
  | nil => simp [hornerSum]
  | cons y ys ih =>
    simp only [List.cons_append, hornerSum, ih, List.length_append, List.length_cons, List.length_nil]
    ring

theorem polySum_shift (h : F128) (k : Nat) (xs : List Block) : polySum h k xs = h ^ k * polySum h 0 xs := by
  induction xs generalizing k with
  | nil => simp [polySum]
  | cons x xs ih =>
    simp only [polySum]
    rw [ih (k + 1), ih (0 + 1)]
    ring

theorem polySum_reverse (h : F128) (xs : List Block) : polySum h 0 xs = hornerSum h xs.reverse := by
  induction xs with
  | nil => rfl
  | cons x xs ih =>
    rw [List.reverse_cons, hornerSum_append, ← ih]
    simp only [polySum]
    rw [polySum_shift h (0 + 1)]
    ring

theorem sumF_products (a b : F128) (k d : Nat) (xs : List Block) :
    sumF (List.zipWith Spec.gcmMul
        (List.zipWith mulBlock xs ((List.range' k (xs.length + d)).map fun i => (a ^ (i + 1)).val))
        (((List.range' k (xs.length + d)).map fun i => (b ^ (i + 1)).val).take xs.length))
      = polySum (a * b) k xs := by
  induction xs generalizing k with
  | nil => simp [sumF, polySum]
  | cons x xs ih =>
    have e : (x :: xs).length + d = (xs.length + d) + 1 := by simp; omega
    rw [e, List.range'_succ]
    simp only [List.map_cons, List.zipWith_cons_cons, List.length_cons, List.take_succ_cons, polySum]
    have := ih (k + 1)
    unfold sumF at this ⊢
    rw [List.map_cons, List.sum_cons, this]
    congr 1
    rw [← mulBlock_eq_gcmMul]
    show (⟨x⟩ * a ^ (k + 1)) * b ^ (k + 1) = _
    rw [mul_pow]; ring

theorem ole_eq (s : Bool) (raw0 raw1 : Nat → Block) (inA inB : List Block) (h : inB.length = inA.length)
    (C22 : ∀ (raw0 raw1 : Nat → Block) (ins inr : List Block) (_ : inr.length = ins.length),
      ∃ os or', OLE.f2kCompute raw0 raw1 ins inr = .ok (os, or', [])
        ∧ os.length = ins.length ∧ or'.length = ins.length
        ∧ List.zipWith (· ^^^ ·) os or' = List.zipWith Spec.gcmMul ins inr) :
    ∃ oA oB, AEAD.ole s raw0 raw1 inA inB = .ok (oA, oB) ∧ oA.length = inA.length ∧ oB.length = inA.length
      ∧ List.zipWith (· ^^^ ·) oA oB = List.zipWith Spec.gcmMul inA inB := by
  cases s with
  | true =>
    obtain ⟨os, or', h1, h2, h3, h4⟩ := C22 raw0 raw1 inA inB h
    exact ⟨os, or', by simp only [AEAD.ole, if_true, h1]; rfl, h2, h3, h4⟩
  | false =>
    obtain ⟨os, or', h1, h2, h3, h4⟩ := C22 raw0 raw1 inB inA h.symm
    refine ⟨or', os, by simp only [AEAD.ole, h1]; rfl, by omega, by omega, ?_⟩
    have e1 : List.zipWith (· ^^^ ·) or' os = List.zipWith (· ^^^ ·) os or' := by
      rw [List.zipWith_comm]; congr 1; funext a b; exact BitVec.xor_comm _ _
    have e2 : List.zipWith Spec.gcmMul inA inB = List.zipWith Spec.gcmMul inB inA := by
      rw [List.zipWith_comm]; congr 1; funext a b; exact gcmMul_comm _ _
    rw [e1, e2, h4]

end Verif.Lemmas
