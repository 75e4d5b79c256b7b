import Verif.Lemmas.Linear
import Verif.Model.Block
import Verif.Spec.GCMField

/-!
Proof that `mulBlock` computes the SP 800-38D product, by bilinearity and evaluation on unit vectors.
-/

set_option linter.unusedSimpArgs false

namespace Verif.Lemmas
open Verif.Model Verif.Spec

theorem getLsbD_ofLanes (l0 l1 l2 l3 : BitVec 32) (i : Nat) :
    (ofLanes l0 l1 l2 l3).getLsbD i =
      if i < 32 then l0.getLsbD i
      else if i < 64 then l1.getLsbD (i - 32)
      else if i < 96 then l2.getLsbD (i - 64)
      else l3.getLsbD (i - 96) := by
  simp only [ofLanes, BitVec.getLsbD_cast, BitVec.getLsbD_append]
  by_cases h1 : i < 32
  · simp [h1]
  · by_cases h2 : i < 64
    · have : i - 32 < 32 := by omega
      simp [h1, h2, this]
    · have e : ¬ (i - 32 < 32) := by omega
      by_cases h3 : i < 96
      · have e2 : i - 32 - 32 < 32 := by omega
        have e3 : i - 32 - 32 = i - 64 := by omega
        simp only [h1, h2, h3, e, if_true, if_false]
        rw [if_pos e2, e3]
      · have e2 : ¬ (i - 32 - 32 < 32) := by omega
        have e3 : i - 32 - 32 - 32 = i - 96 := by omega
        simp only [h1, h2, h3, e, e2, e3, if_false]

theorem getLsbD_slliEpi32 (x : Block) (n i : Nat) :
    (slliEpi32 x n).getLsbD i = (decide (i < 128) && decide (n ≤ i % 32) && x.getLsbD (i - n)) := by
  simp only [slliEpi32, getLsbD_ofLanes, lane32, BitVec.getLsbD_shiftLeft, BitVec.getLsbD_setWidth,
    BitVec.getLsbD_ushiftRight]
  by_cases h0 : i < 128
  · by_cases h1 : i < 32
    · by_cases h : n ≤ i % 32
      · have e1 : i - n < 32 := by omega
        have e2 : ¬ (i < n) := by omega
        simp [h0, h1, h, e1, e2]
      · have e2 : (i < n) := by omega
        simp [h0, h1, h, e2]
    · by_cases h2 : i < 64
      · by_cases h : n ≤ i % 32
        · have e1 : i - 32 - n < 32 := by omega
          have e2 : ¬ (i - 32 < n) := by omega
          have e3 : 32 + (i - 32 - n) = i - n := by omega
          have e4 : i - 32 < 32 := by omega
          simp [h0, h1, h2, h, e1, e2, e3, e4]
        · have e2 : (i - 32 < n) := by omega
          simp [h0, h1, h2, h, e2]
      · by_cases h3 : i < 96
        · by_cases h : n ≤ i % 32
          · have e1 : i - 64 - n < 32 := by omega
            have e2 : ¬ (i - 64 < n) := by omega
            have e3 : 64 + (i - 64 - n) = i - n := by omega
            have e4 : i - 64 < 32 := by omega
            simp [h0, h1, h2, h3, h, e1, e2, e3, e4]
          · have e2 : (i - 64 < n) := by omega
            simp [h0, h1, h2, h3, h, e2]
        · by_cases h : n ≤ i % 32
          · have e1 : i - 96 - n < 32 := by omega
            have e2 : ¬ (i - 96 < n) := by omega
            have e3 : 96 + (i - 96 - n) = i - n := by omega
            have e4 : i - 96 < 32 := by omega
            simp [h0, h1, h2, h3, h, e1, e2, e3, e4]
          · have e2 : (i - 96 < n) := by omega
            simp [h0, h1, h2, h3, h, e2]
  · have e1 : ¬ (i - 96 < 32) := by omega
    have h1 : ¬ (i < 32) := by omega
    have h2 : ¬ (i < 64) := by omega
    have h3 : ¬ (i < 96) := by omega
    simp [h0, h1, h2, h3, e1]

theorem getLsbD_srliEpi32 (x : Block) (n i : Nat) :
    (srliEpi32 x n).getLsbD i = (decide (i < 128) && decide (i % 32 + n < 32) && x.getLsbD (i + n)) := by
  simp only [srliEpi32, getLsbD_ofLanes, lane32, BitVec.getLsbD_setWidth,
    BitVec.getLsbD_ushiftRight]
  by_cases h0 : i < 128
  · by_cases h1 : i < 32
    · by_cases h : i % 32 + n < 32
      · have e1 : n + i < 32 := by omega
        have e3 : n + i = i + n := by omega
        simp [h0, h1, h, e1, e3]; omega
      · have e2 : ¬ (n + i < 32) := by omega
        simp [h0, h1, h, e2]
    · by_cases h2 : i < 64
      · by_cases h : i % 32 + n < 32
        · have e1 : n + (i - 32) < 32 := by omega
          have e3 : 32 + (n + (i - 32)) = i + n := by omega
          simp [h0, h1, h2, h, e1, e3]
        · have e2 : ¬ (n + (i - 32) < 32) := by omega
          simp [h0, h1, h2, h, e2]
      · by_cases h3 : i < 96
        · by_cases h : i % 32 + n < 32
          · have e1 : n + (i - 64) < 32 := by omega
            have e3 : 64 + (n + (i - 64)) = i + n := by omega
            simp [h0, h1, h2, h3, h, e1, e3]
          · have e2 : ¬ (n + (i - 64) < 32) := by omega
            simp [h0, h1, h2, h3, h, e2]
        · by_cases h : i % 32 + n < 32
          · have e1 : n + (i - 96) < 32 := by omega
            have e3 : 96 + (n + (i - 96)) = i + n := by omega
            simp [h0, h1, h2, h3, h, e1, e3]
          · have e2 : ¬ (n + (i - 96) < 32) := by omega
            simp [h0, h1, h2, h3, h, e2]
  · have e1 : ¬ (n + (i - 96) < 32) := by omega
    have h1 : ¬ (i < 32) := by omega
    have h2 : ¬ (i < 64) := by omega
    have h3 : ¬ (i < 96) := by omega
    simp [h0, h1, h2, h3, e1]

theorem lin_slliEpi32 (n : Nat) : Lin (fun x => slliEpi32 x n) := by
  intro a b
  apply BitVec.eq_of_getLsbD_eq; intro i hi
  simp only [getLsbD_slliEpi32, BitVec.getLsbD_xor, hi]
  cases decide (n ≤ i % 32) <;> simp

theorem lin_srliEpi32 (n : Nat) : Lin (fun x => srliEpi32 x n) := by
  intro a b
  apply BitVec.eq_of_getLsbD_eq; intro i hi
  simp only [getLsbD_srliEpi32, BitVec.getLsbD_xor, hi]
  cases decide (i % 32 + n < 32) <;> simp

/-- Lines 167-174: the lane shifts with carries make a 256-bit left shift by one. -/
theorem shift_low (x : Block) : slliEpi32 x 1 ||| slliSi128 (srliEpi32 x 31) 4 = x <<< 1 := by
  apply BitVec.eq_of_getLsbD_eq; intro i hi
  simp only [BitVec.getLsbD_or, getLsbD_slliEpi32, slliSi128, BitVec.getLsbD_shiftLeft, getLsbD_srliEpi32, hi]
  by_cases h0 : i < 1
  · have : i = 0 := by omega
    subst this; simp
  · by_cases h1 : 1 ≤ i % 32
    · by_cases h2 : i < 32
      · simp [h1, h0, h2]
      · have e : ¬ ((i - 32) % 32 + 31 < 32) := by omega
        simp [h1, h0, e]
    · have e1 : ¬ (i < 32) := by omega
      have e2 : (i - 32) % 32 + 31 < 32 := by omega
      have e3 : i - 32 + 31 = i - 1 := by omega
      have e4 : i - 32 < 128 := by omega
      simp [h0, h1, e1, e2, e3, e4]

theorem shift_high (x y : Block) :
    slliEpi32 y 1 ||| slliSi128 (srliEpi32 y 31) 4 ||| srliSi128 (srliEpi32 x 31) 12
      = (y <<< 1) ^^^ (x >>> 127) := by
  rw [shift_low]
  apply BitVec.eq_of_getLsbD_eq; intro i hi
  simp only [BitVec.getLsbD_or, BitVec.getLsbD_xor, srliSi128, BitVec.getLsbD_ushiftRight, getLsbD_srliEpi32,
    BitVec.getLsbD_shiftLeft, hi]
  by_cases h0 : i = 0
  · subst h0; simp
  · have e1 : ¬ (8 * 12 + i) % 32 + 31 < 32 ∨ ¬ (8 * 12 + i < 128) := by omega
    have e2 : x.getLsbD (127 + i) = false := BitVec.getLsbD_of_ge _ _ (by omega)
    have e3 : x.getLsbD (8 * 12 + i + 31) = false := BitVec.getLsbD_of_ge _ _ (by omega)
    rw [e2, e3]; simp

/-- Linear form of the reduction. -/
def redL (t3 t6 : Block) : Block :=
  let a := t3 <<< 1
  let b := (t6 <<< 1) ^^^ (t3 >>> 127)
  let c := slliEpi32 a 31 ^^^ slliEpi32 a 30 ^^^ slliEpi32 a 25
  let d := a ^^^ slliSi128 c 12
  b ^^^ (d ^^^ (srliEpi32 d 1 ^^^ srliEpi32 d 2 ^^^ srliEpi32 d 7 ^^^ srliSi128 c 4))

theorem mulBlockRed_eq (t3 t6 : Block) : mulBlockRed t3 t6 = redL t3 t6 := by
  have h := shift_high t3 t6
  simp only [shift_low] at h
  simp only [mulBlockRed, redL, shift_low, h]

/-- Part of the reduction that depends on the low half. -/
def redC (a : Block) : Block := slliEpi32 a 31 ^^^ slliEpi32 a 30 ^^^ slliEpi32 a 25
def redD (a : Block) : Block := a ^^^ slliSi128 (redC a) 12
def redE (a : Block) : Block :=
  redD a ^^^ (srliEpi32 (redD a) 1 ^^^ srliEpi32 (redD a) 2 ^^^ srliEpi32 (redD a) 7 ^^^ srliSi128 (redC a) 4)

theorem lin_redC : Lin redC := ((lin_slliEpi32 31).xor (lin_slliEpi32 30)).xor (lin_slliEpi32 25)
theorem lin_redD : Lin redD := lin_id.xor ((lin_shiftLeft (8 * 12)).comp lin_redC)
theorem lin_redE : Lin redE :=
  lin_redD.xor (((((lin_srliEpi32 1).comp lin_redD).xor ((lin_srliEpi32 2).comp lin_redD)).xor
    ((lin_srliEpi32 7).comp lin_redD)).xor ((lin_ushiftRight (8 * 4)).comp lin_redC))

theorem redL_split (t3 t6 : Block) : redL t3 t6 = (t6 <<< 1) ^^^ ((t3 >>> 127) ^^^ redE (t3 <<< 1)) := by
  simp only [redL, redE, redD, redC, BitVec.xor_assoc]

theorem redL_xor (a a' b b' : Block) : redL (a ^^^ a') (b ^^^ b') = redL a b ^^^ redL a' b' := by
  simp only [redL_split, BitVec.shiftLeft_xor_distrib, BitVec.ushiftRight_xor_distrib]
  rw [lin_redE]
  ac_rfl

/-! ### The carry-less product -/

theorem clmul64_eq (a b : BitVec 64) :
    clmul64 a b = xorSum (List.range 64) (fun i => if b.getLsbD i then (a.setWidth 128) <<< i else 0#128) := by
  rw [clmul64, foldl_cond_xor]; simp

theorem clmul64_lin_left (b : BitVec 64) : Lin (fun a => clmul64 a b) := by
  have : (fun a : BitVec 64 => clmul64 a b) = (fun a : BitVec 64 => xorSum (List.range 64)
      (fun i => if b.getLsbD i then (a.setWidth 128) <<< i else 0#128)) := by
    funext a; exact clmul64_eq a b
  rw [this]
  exact lin_xorSum _ (fun i (a : BitVec 64) => if b.getLsbD i then (a.setWidth 128) <<< i else 0#128)
    (fun i => lin_ite _ ((lin_shiftLeft i).comp lin_setWidth))

theorem clmul64_lin_right (a : BitVec 64) : Lin (fun b => clmul64 a b) := by
  have : (fun b => clmul64 a b) = (fun b => xorSum (List.range 64)
      (fun i => if b.getLsbD i then (a.setWidth 128) <<< i else 0#128)) := by
    funext b; exact clmul64_eq a b
  rw [this]
  exact lin_xorSum _ (fun i b => if b.getLsbD i then (a.setWidth 128) <<< i else 0#128)
    (fun i => lin_bit i _)

theorem clmul64_basis (i j : Nat) (hi : i < 64) (hj : j < 64) :
    clmul64 (BitVec.twoPow 64 i) (BitVec.twoPow 64 j) = BitVec.twoPow 128 (i + j) := by
  rw [clmul64_eq, xorSum_range_single 64 j hj]
  · simp only [BitVec.getLsbD_twoPow, hj, decide_true, Bool.and_self, if_true]
    apply BitVec.eq_of_getLsbD_eq; intro k hk
    simp only [BitVec.getLsbD_shiftLeft, BitVec.getLsbD_setWidth, BitVec.getLsbD_twoPow, hk, hi]
    by_cases h : i + j = k
    · subst h
      have : i < 128 := by omega
      have h2 : ¬ (i + j < j) := by omega
      simp [this, hk]
    · have : k < j ∨ ¬ (i = k - j) := by omega
      simp [h]; omega
  · intro k _ hk
    have : ¬ (j = k) := fun h => hk h.symm
    simp [BitVec.getLsbD_twoPow, this]

theorem lin_lo64 : Lin lo64 := lin_setWidth
theorem lin_hi64 : Lin hi64 := (lin_setWidth (n := 128) (m := 64)).comp (lin_ushiftRight 64)

theorem lo64_twoPow (i : Nat) (hi : i < 128) :
    lo64 (BitVec.twoPow 128 i) = if i < 64 then BitVec.twoPow 64 i else 0#64 := by
  apply BitVec.eq_of_getLsbD_eq; intro k hk
  simp only [lo64, BitVec.getLsbD_setWidth, BitVec.getLsbD_twoPow, hk, hi]
  split
  · simp [BitVec.getLsbD_twoPow, *, eq_comm]
  · simp; omega

theorem hi64_twoPow (i : Nat) (hi : i < 128) :
    hi64 (BitVec.twoPow 128 i) = if i < 64 then 0#64 else BitVec.twoPow 64 (i - 64) := by
  apply BitVec.eq_of_getLsbD_eq; intro k hk
  simp only [hi64, BitVec.getLsbD_setWidth, BitVec.getLsbD_ushiftRight, BitVec.getLsbD_twoPow, hk, hi]
  split
  · simp; omega
  · have : (i = 64 + k) = (i - 64 = k) := by apply propext; omega
    have h2 : i - 64 < 64 := by omega
    simp [BitVec.getLsbD_twoPow, this, h2]

theorem clmulepi64_lin_left (b : Block) (imm : Nat) : Lin (fun a => clmulepi64 a b imm) := by
  unfold clmulepi64
  cases imm.testBit 0
  · exact (clmul64_lin_left _).comp lin_lo64
  · exact (clmul64_lin_left _).comp lin_hi64

theorem clmulepi64_lin_right (a : Block) (imm : Nat) : Lin (fun b => clmulepi64 a b imm) := by
  unfold clmulepi64
  cases imm.testBit 4
  · exact (clmul64_lin_right _).comp lin_lo64
  · exact (clmul64_lin_right _).comp lin_hi64

theorem prod_regroup (a0 a1 b0 b1 c0 c1 d0 d1 : Block) (k : Nat) :
    redL ((a0 ^^^ a1) ^^^ ((b0 ^^^ b1) ^^^ (c0 ^^^ c1)) <<< k) ((d0 ^^^ d1) ^^^ ((b0 ^^^ b1) ^^^ (c0 ^^^ c1)) >>> k)
      = redL (a0 ^^^ (b0 ^^^ c0) <<< k) (d0 ^^^ (b0 ^^^ c0) >>> k)
        ^^^ redL (a1 ^^^ (b1 ^^^ c1) <<< k) (d1 ^^^ (b1 ^^^ c1) >>> k) := by
  rw [← redL_xor]
  have h1 : (a0 ^^^ a1) ^^^ ((b0 ^^^ b1) ^^^ (c0 ^^^ c1)) <<< k
      = (a0 ^^^ (b0 ^^^ c0) <<< k) ^^^ (a1 ^^^ (b1 ^^^ c1) <<< k) := by
    simp only [BitVec.shiftLeft_xor_distrib]; ac_rfl
  have h2 : (d0 ^^^ d1) ^^^ ((b0 ^^^ b1) ^^^ (c0 ^^^ c1)) >>> k
      = (d0 ^^^ (b0 ^^^ c0) >>> k) ^^^ (d1 ^^^ (b1 ^^^ c1) >>> k) := by
    simp only [BitVec.ushiftRight_xor_distrib]; ac_rfl
  rw [h1, h2]

theorem mulBlock_lin_left (b : Block) : Lin (fun a => mulBlock a b) := by
  intro a a'
  have e : ∀ imm, clmulepi64 (a ^^^ a') b imm = clmulepi64 a b imm ^^^ clmulepi64 a' b imm :=
    fun imm => clmulepi64_lin_left b imm a a'
  simp only [mulBlock, mulBlockProd, mulBlockRed_eq, e, slliSi128, srliSi128]
  rw [prod_regroup]

theorem mulBlock_lin_right (a : Block) : Lin (mulBlock a) := by
  intro b b'
  have e : ∀ imm, clmulepi64 a (b ^^^ b') imm = clmulepi64 a b imm ^^^ clmulepi64 a b' imm :=
    fun imm => clmulepi64_lin_right a imm b b'
  simp only [mulBlock, mulBlockProd, mulBlockRed_eq, e, slliSi128, srliSi128]
  rw [prod_regroup]

theorem clmul64_zero_left (b : BitVec 64) : clmul64 0#64 b = 0#128 := (clmul64_lin_left b).zero
theorem clmul64_zero_right (a : BitVec 64) : clmul64 a 0#64 = 0#128 := (clmul64_lin_right a).zero

theorem twoPow_ge (n k : Nat) (h : n ≤ k) : BitVec.twoPow n k = 0#n := by
  apply BitVec.eq_of_getLsbD_eq; intro i hi
  have : ¬ (k < n) := by omega
  simp [BitVec.getLsbD_twoPow, this]

theorem twoPow_shl (k s : Nat) : (BitVec.twoPow 128 k) <<< s = BitVec.twoPow 128 (k + s) := by
  apply BitVec.eq_of_getLsbD_eq; intro i hi
  simp only [BitVec.getLsbD_shiftLeft, BitVec.getLsbD_twoPow, hi]
  by_cases h : k + s = i
  · subst h
    have h1 : k < 128 := by omega
    have h2 : ¬ (k + s < s) := by omega
    simp [h1, hi]
  · simp [h]; omega

theorem twoPow_shr (k s : Nat) (hk : k < 128) :
    (BitVec.twoPow 128 k) >>> s = if s ≤ k then BitVec.twoPow 128 (k - s) else 0#128 := by
  apply BitVec.eq_of_getLsbD_eq; intro i hi
  simp only [BitVec.getLsbD_ushiftRight, BitVec.getLsbD_twoPow, hk]
  split
  · have h2 : k - s < 128 := by omega
    have : (k = s + i) = (k - s = i) := by apply propext; omega
    simp [BitVec.getLsbD_twoPow, h2, this]
  · simp; omega

/-- The 256-bit product of two unit vectors. -/
theorem mulBlockProd_basis (i j : Nat) (hi : i < 128) (hj : j < 128) :
    mulBlockProd (BitVec.twoPow 128 i) (BitVec.twoPow 128 j)
      = (BitVec.twoPow 128 (i + j), if i + j < 128 then 0#128 else BitVec.twoPow 128 (i + j - 128)) := by
  have t0 : Nat.testBit 0 0 = false := by decide
  have t1 : Nat.testBit 0 4 = false := by decide
  have t2 : Nat.testBit 16 0 = false := by decide
  have t3 : Nat.testBit 16 4 = true := by decide
  have t4 : Nat.testBit 1 0 = true := by decide
  have t5 : Nat.testBit 1 4 = false := by decide
  have t6 : Nat.testBit 17 0 = true := by decide
  have t7 : Nat.testBit 17 4 = true := by decide
  simp only [mulBlockProd, clmulepi64, t0, t1, t2, t3, t4, t5, t6, t7, lo64_twoPow _ hi, lo64_twoPow _ hj,
    hi64_twoPow _ hi, hi64_twoPow _ hj, slliSi128, srliSi128]
  by_cases h1 : i < 64 <;> by_cases h2 : j < 64
  · have h3 : i + j < 128 := by omega
    simp [h1, h2, h3, clmul64_zero_left, clmul64_zero_right, clmul64_basis]
  · have e1 : j - 64 < 64 := by omega
    simp only [h1, h2, clmul64_zero_left, clmul64_zero_right, clmul64_basis i (j-64) h1 e1, if_true, if_false,
      Bool.false_eq_true, BitVec.xor_zero, BitVec.zero_xor, BitVec.zero_shiftLeft, BitVec.zero_ushiftRight]
    rw [twoPow_shl, twoPow_shr _ _ (by omega)]
    have e2 : i + (j - 64) + 8 * 8 = i + j := by omega
    rw [e2]
    by_cases h3 : i + j < 128
    · rw [if_pos h3, if_neg (by omega)]
    · have e4 : i + (j - 64) - 8 * 8 = i + j - 128 := by omega
      rw [if_neg h3, if_pos (by omega), e4]
  · have e1 : i - 64 < 64 := by omega
    simp only [h1, h2, clmul64_zero_left, clmul64_zero_right, clmul64_basis (i-64) j e1 h2, if_true, if_false,
      Bool.false_eq_true, BitVec.xor_zero, BitVec.zero_xor, BitVec.zero_shiftLeft, BitVec.zero_ushiftRight]
    rw [twoPow_shl, twoPow_shr _ _ (by omega)]
    have e2 : i - 64 + j + 8 * 8 = i + j := by omega
    rw [e2]
    by_cases h3 : i + j < 128
    · rw [if_pos h3, if_neg (by omega)]
    · have e4 : i - 64 + j - 8 * 8 = i + j - 128 := by omega
      rw [if_neg h3, if_pos (by omega), e4]
  · have e1 : i - 64 < 64 := by omega
    have e2 : j - 64 < 64 := by omega
    have h3 : ¬ (i + j < 128) := by omega
    have e3 : i - 64 + (j - 64) = i + j - 128 := by omega
    simp [h1, h2, h3, clmul64_zero_left, clmul64_zero_right, clmul64_basis (i-64) (j-64) e1 e2,
      twoPow_ge 128 (i+j) (by omega), e3]

/-! ### The specification in sum form -/

/-- `V_k` of algorithm 1. -/
def xIter (y : Block) : Nat → Block
  | 0 => y
  | k + 1 => gcmNextV (xIter y k)

theorem gcmNextV_eq (v : Block) : gcmNextV v = (v >>> 1) ^^^ (if v.getLsbD 0 then gcmR else 0#128) := by
  have e : strBit v 127 = v.getLsbD 0 := rfl
  rw [gcmNextV, e]
  split <;> simp

theorem lin_gcmNextV : Lin gcmNextV := by
  have : gcmNextV = fun v : Block => (v >>> 1) ^^^ (if v.getLsbD 0 then gcmR else 0#128) := by
    funext v; exact gcmNextV_eq v
  rw [this]
  exact (lin_ushiftRight 1).xor (lin_bit 0 gcmR)

theorem lin_xIter (k : Nat) : Lin (fun y => xIter y k) := by
  induction k with
  | zero => exact lin_id
  | succ k ih => exact lin_gcmNextV.comp ih

theorem xIter_add (y : Block) (j k : Nat) : xIter y (j + k) = xIter (xIter y j) k := by
  induction k with
  | zero => rfl
  | succ k ih => rw [← Nat.add_assoc]; simp only [xIter, ih]

theorem xIter_gcmNextV (y : Block) (k : Nat) : xIter (gcmNextV y) k = gcmNextV (xIter y k) := by
  have h1 := xIter_add y 1 k
  have h2 := xIter_add y k 1
  rw [Nat.add_comm 1 k] at h1
  simp only [xIter] at h1 h2
  exact h1.symm

theorem gcmMul_eq (x y : Block) :
    gcmMul x y = xorSum (List.range 128) (fun i => if strBit x i then xIter y i else 0#128) := by
  have key : ∀ k, (List.range k).foldl
      (fun (s : Block × Block) i => (if strBit x i then s.1 ^^^ s.2 else s.1, gcmNextV s.2)) (0#128, y)
      = (xorSum (List.range k) (fun i => if strBit x i then xIter y i else 0#128), xIter y k) := by
    intro k
    induction k with
    | zero => rfl
    | succ k ih =>
      rw [List.range_succ, List.foldl_append, ih, xorSum_append]
      simp only [List.foldl_cons, List.foldl_nil, xIter, xorSum_cons, xorSum_nil]
      cases strBit x k <;> simp
  rw [gcmMul, key]

theorem gcmMul_lin_left (y : Block) : Lin (fun x => gcmMul x y) := by
  have : (fun x => gcmMul x y)
      = fun x => xorSum (List.range 128) (fun i => if strBit x i then xIter y i else 0#128) := by
    funext x; exact gcmMul_eq x y
  rw [this]
  exact lin_xorSum _ (fun i x => if strBit x i then xIter y i else 0#128) (fun i => lin_bit (127 - i) _)

theorem gcmMul_lin_right (x : Block) : Lin (gcmMul x) := by
  have : gcmMul x
      = fun y => xorSum (List.range 128) (fun i => if strBit x i then xIter y i else 0#128) := by
    funext y; exact gcmMul_eq x y
  rw [this]
  exact lin_xorSum _ (fun i y => if strBit x i then xIter y i else 0#128) (fun i => lin_ite _ (lin_xIter i))

theorem gcmMul_basis_left (i : Nat) (hi : i < 128) (y : Block) :
    gcmMul (BitVec.twoPow 128 i) y = xIter y (127 - i) := by
  rw [gcmMul_eq, xorSum_range_single 128 (127 - i) (by omega)]
  · have : 127 - (127 - i) = i := by omega
    simp [strBit, BitVec.getLsbD_twoPow, this, hi]
  · intro k hk hne
    have : ¬ (i = 127 - k) := by omega
    simp [strBit, BitVec.getLsbD_twoPow, this]

theorem gcmNextV_twoPow (j : Nat) (hj : j + 1 < 128) :
    gcmNextV (BitVec.twoPow 128 (j + 1)) = BitVec.twoPow 128 j := by
  rw [gcmNextV_eq, twoPow_shr _ _ hj]
  simp [BitVec.getLsbD_twoPow]

theorem xIter_twoPow (j k : Nat) (hj : j < 128) (hk : k ≤ j) :
    xIter (BitVec.twoPow 128 j) k = BitVec.twoPow 128 (j - k) := by
  induction k with
  | zero => rfl
  | succ k ih =>
    rw [xIter, ih (by omega)]
    have : j - k = (j - (k+1)) + 1 := by omega
    rw [this, gcmNextV_twoPow _ (by omega)]

/-- Value of the product of two unit vectors with indices summing to `k`. -/
def basisProd (k : Nat) : Block :=
  if 127 ≤ k then BitVec.twoPow 128 (k - 127) else xIter (BitVec.twoPow 128 0) (127 - k)

theorem gcmMul_basis (i j : Nat) (hi : i < 128) (hj : j < 128) :
    gcmMul (BitVec.twoPow 128 i) (BitVec.twoPow 128 j) = basisProd (i + j) := by
  rw [gcmMul_basis_left i hi, basisProd]
  split
  · have e : j - (127 - i) = i + j - 127 := by omega
    rw [xIter_twoPow j (127 - i) hj (by omega), e]
  · have : 127 - i = j + (127 - (i + j)) := by omega
    rw [this, xIter_add, xIter_twoPow j j hj (Nat.le_refl _), Nat.sub_self]

theorem redL_table : ∀ k : Fin 255,
    redL (BitVec.twoPow 128 k) (if (k : Nat) < 128 then 0#128 else BitVec.twoPow 128 (k - 128))
      = basisProd k := by
  decide +kernel

theorem mulBlock_basis (i j : Nat) (hi : i < 128) (hj : j < 128) :
    mulBlock (BitVec.twoPow 128 i) (BitVec.twoPow 128 j) = basisProd (i + j) := by
  rw [mulBlock, mulBlockProd_basis i j hi hj]
  simp only [mulBlockRed_eq]
  exact redL_table ⟨i + j, by omega⟩

theorem mulBlock_eq_gcmMul (a b : Block) : mulBlock a b = gcmMul a b :=
  bilin_ext mulBlock_lin_left mulBlock_lin_right gcmMul_lin_left gcmMul_lin_right
    (fun i j hi hj => by rw [mulBlock_basis i j hi hj, gcmMul_basis i j hi hj]) a b

end Verif.Lemmas
