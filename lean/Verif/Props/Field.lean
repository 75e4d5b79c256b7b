import Verif.Lemmas.GFPow
import Mathlib.Algebra.BigOperators.Group.Finset.Basic
import Mathlib.Algebra.BigOperators.Fin

/-!
Properties C04 - C07: the GF(2^128) routines of `cipher/utils.h`.
-/

namespace Verif.Props
open Verif.Model Verif.Spec Verif.Lemmas

/-- C04.  `mulBlock` is the SP 800-38D multiplication. -/
theorem C04_mulBlock_is_gcm_mul (a b : Block) : mulBlock a b = gcmMul a b := mulBlock_eq_gcmMul a b

-- non-trivial instance: the product from the GCM test vectors (test case 2, X_1 * H)
example : gcmMul 0x0388dace60b6a392f328c2b971b2fe78#128 0x66e94bd4ef8a2c3b884cfa59ca342b2e#128
    = 0x5e2ec746917062882c85b0685353deb7#128 := by decide +kernel
example : mulBlock 0x0388dace60b6a392f328c2b971b2fe78#128 0x66e94bd4ef8a2c3b884cfa59ca342b2e#128
    = 0x5e2ec746917062882c85b0685353deb7#128 := by decide +kernel

/-- C05.  Commutativity. -/
theorem C05_mul_comm (a b : Block) : mulBlock a b = mulBlock b a :=
  congrArg F128.val (mul_comm (⟨a⟩ : F128) ⟨b⟩)

/-- C05.  Associativity. -/
theorem C05_mul_assoc (a b c : Block) : mulBlock (mulBlock a b) c = mulBlock a (mulBlock b c) :=
  congrArg F128.val (mul_assoc (⟨a⟩ : F128) ⟨b⟩ ⟨c⟩)

/-- C05.  Distributivity over xor. -/
theorem C05_mul_xor (a b c : Block) : mulBlock a (b ^^^ c) = mulBlock a b ^^^ mulBlock a c :=
  congrArg F128.val (mul_add (⟨a⟩ : F128) ⟨b⟩ ⟨c⟩)

/-- C05.  The block with only bit 127 set is the unit. -/
theorem C05_mul_one (a : Block) : mulBlock a (1#128 <<< 127) = a := by
  have h : (1#128 <<< 127 : Block) = oneBlock := by decide
  rw [h]
  exact congrArg F128.val (mul_one (⟨a⟩ : F128))

/-- C05.  The zero block absorbs. -/
theorem C05_mul_zero (a : Block) : mulBlock a 0#128 = 0#128 :=
  congrArg F128.val (mul_zero (⟨a⟩ : F128))

/-- C05.  No zero divisors. -/
theorem C05_no_zero_divisors (a b : Block) (h : mulBlock a b = 0#128) : a = 0#128 ∨ b = 0#128 := by
  have h' : (⟨a⟩ : F128) * ⟨b⟩ = 0 := by ext1; exact h
  rcases mul_eq_zero.1 h' with h1 | h1
  · left; exact congrArg F128.val h1
  · right; exact congrArg F128.val h1

example : mulBlock 0#128 5#128 = 0#128 := by decide +kernel

/-- C05.  The defining relation of the field: with `x` the block with only bit 126 set (coefficient of
`x^1`), `x^128 = x^7 + x^2 + x + 1`. -/
theorem C05_polynomial : (F128.X ^ 128 : F128) = F128.X ^ 7 + F128.X ^ 2 + F128.X + 1 := by
  have h : (F128.X ^ 128 : F128) = F128.X * F128.X ^ 127 := by rw [← pow_succ']
  ext1
  rw [h, F128.X_mul, F128.pow_X_val 127 (by omega)]
  have h7 := F128.pow_X_val 7 (by omega)
  have h2 := F128.pow_X_val 2 (by omega)
  rw [F128.add_val, F128.add_val, F128.add_val, h7, h2, F128.one_val, F128.X]
  decide +kernel

/-- C05.  Every block is the sum of `x^i` over its bits `127 - i`: blocks are exactly the polynomials of
degree below 128 with bit-reflected coefficients. -/
theorem C05_coefficients (a : F128) :
    a = ∑ i ∈ Finset.range 128, if a.val.getLsbD (127 - i) then F128.X ^ i else 0 := by
  ext1
  have key : ∀ (n : Nat) (f : Nat → F128),
      (∑ i ∈ Finset.range n, f i).val = xorSum (List.range n) (fun i => (f i).val) := by
    intro n f
    induction n with
    | zero => rfl
    | succ n ih => rw [Finset.sum_range_succ, List.range_succ, xorSum_append, F128.add_val, ih]; simp
  rw [key]
  have h1 := mul_one a
  have h2 : a.val = gcmMul a.val oneBlock := by
    rw [← mulBlock_eq_gcmMul]; exact (congrArg F128.val h1).symm
  rw [gcmMul_eq] at h2
  conv_lhs => rw [h2]
  apply xorSum_congr
  intro i hi
  have hi' := List.mem_range.1 hi
  have e : xIter oneBlock i = (F128.X ^ i).val := by
    rw [oneBlock_eq, xIter_twoPow 127 i (by omega) (by omega), F128.pow_X_val i hi']
  rw [e]
  rw [apply_ite F128.val]; rfl

/-- C06.  `powBlock a n` is the `n`-th power, i.e. the `n`-fold product, for every 64-bit `n`. -/
theorem C06_powBlock (a : Block) (n : BitVec 64) :
    powBlock a n = Nat.repeat (fun r => mulBlock a r) n.toNat (1#128 <<< 127) := by
  have h : (1#128 <<< 127 : Block) = oneBlock := by decide
  rw [h]
  have := powBlock_eq ⟨a⟩ n
  simp only at this
  rw [this]
  generalize n.toNat = k
  induction k with
  | zero => simp [Nat.repeat]
  | succ k ih => rw [Nat.repeat, ← ih, pow_succ']; rfl

example : powBlock 0x0388dace60b6a392f328c2b971b2fe78#128 3#64
    = mulBlock 0x0388dace60b6a392f328c2b971b2fe78#128 (mulBlock 0x0388dace60b6a392f328c2b971b2fe78#128
        0x0388dace60b6a392f328c2b971b2fe78#128) := by decide +kernel

/-- C06.  `invBlock` is the multiplicative inverse. -/
theorem C06_invBlock (a : Block) (ha : a ≠ 0#128) : mulBlock a (invBlock a) = 1#128 <<< 127 := by
  have h : (1#128 <<< 127 : Block) = oneBlock := by decide
  rw [h]
  refine congrArg F128.val (F128.mul_invBlock ⟨a⟩ ?_)
  intro h0
  exact ha (congrArg F128.val h0)

/-- C06.  The inverse of zero is zero (no failure). -/
theorem C06_invBlock_zero : invBlock 0#128 = 0#128 := F128.invBlock_zero

example : (0x0388dace60b6a392f328c2b971b2fe78#128 : Block) ≠ 0#128 := by decide

/-- C07.  `ghash` is the GHASH function of SP 800-38D. -/
theorem C07_ghash_is_gcm_ghash (h : Block) (x : List Block) : ghash h x = gcmGhash h x := by
  have : (fun y xi => mulBlock (y ^^^ xi) h) = fun y xi => gcmMul (y ^^^ xi) h := by
    funext y xi; exact mulBlock_eq_gcmMul _ _
  unfold ghash gcmGhash
  rw [this]

/-- C07.  Closed form of `ghash`: the sum of `x_i * h^(m-i)`. -/
theorem C07_ghash_sum (h : F128) (x : List Block) :
    (⟨ghash h.val x⟩ : F128)
      = ∑ i : Fin x.length, (⟨x[i]⟩ : F128) * h ^ (x.length - i.val) := by
  ext1
  simp only
  rw [ghash_eq_horner]
  refine congrArg F128.val ?_
  induction x with
  | nil => simp [hornerSum]
  | cons a xs ih =>
    rw [hornerSum, ih]
    simp only [List.length_cons, Fin.sum_univ_succ]
    simp

example : ghash 0x66e94bd4ef8a2c3b884cfa59ca342b2e#128
    [0x0388dace60b6a392f328c2b971b2fe78#128, 0x00000000000000000000000000000080#128]
    = 0xf38cbb1ad69223dcc3457ae5b6b0f885#128 := by decide +kernel

end Verif.Props
