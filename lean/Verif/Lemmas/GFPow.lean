import Verif.Lemmas.GFRing

/-! `powBlock` computes powers, and the Horner form of GHASH. -/

namespace Verif.Lemmas
open Verif.Model Verif.Spec

theorem and_one_ne_zero (len : BitVec 64) (i : Nat) :
    (((len >>> i) &&& 1#64) != 0#64) = len.toNat.testBit i := by
  have h : ((len >>> i) &&& 1#64) = if len.getLsbD i then 1#64 else 0#64 := by
    apply BitVec.eq_of_getLsbD_eq; intro k hk
    simp only [BitVec.getLsbD_and, BitVec.getLsbD_ushiftRight]
    by_cases h0 : k = 0
    · subst h0; cases h : len.getLsbD i <;> simp [h]
    · have e1 : (1#64).getLsbD k = false := by
        rw [BitVec.getLsbD_one]; simp [h0]
      rw [e1]
      split
      · simp [h0]
      · simp
  rw [h, ← BitVec.testBit_toNat]
  cases len.toNat.testBit i <;> decide

theorem leadingZeros_le (len : BitVec 64) (n : Nat) : leadingZeros64 len n ≤ n := by
  induction n with
  | zero => simp [leadingZeros64]
  | succ n ih => simp only [leadingZeros64]; split <;> omega

theorem leadingZeros_spec (len : BitVec 64) (n : Nat) (h : len.toNat < 2 ^ n) :
    len.toNat < 2 ^ (n - leadingZeros64 len n) := by
  induction n with
  | zero => simpa [leadingZeros64] using h
  | succ n ih =>
    simp only [leadingZeros64, and_one_ne_zero]
    split
    · simpa using h
    · rename_i hb
      have hlt : len.toNat < 2 ^ n := by
        rcases Nat.lt_or_ge len.toNat (2 ^ n) with h1 | h1
        · exact h1
        · exfalso
          apply hb
          rw [Nat.testBit_eq_decide_div_mod_eq]
          have : len.toNat / 2 ^ n = 1 := by
            apply Nat.div_eq_of_lt_le
            · simpa using h1
            · simpa [pow_succ, Nat.mul_comm] using h
          simp [this]
      have := ih hlt
      have h2 := leadingZeros_le len n
      have e : n + 1 - (leadingZeros64 len n + 1) = n - leadingZeros64 len n := by omega
      rw [e]; exact this

theorem pow_loop (a : F128) (len : BitVec 64) (m : Nat) :
    (List.range' 1 m).foldl (powStep len)
      (a.val, if (len &&& 1#64) != 0#64 then a.val else oneBlock)
    = ((a ^ (2 ^ m)).val, (a ^ (len.toNat % 2 ^ (m + 1))).val) := by
  induction m with
  | zero =>
    have h := and_one_ne_zero len 0
    simp only [BitVec.ushiftRight_zero] at h
    rw [h]
    have : len.toNat % 2 ^ (0 + 1) = (len.toNat.testBit 0).toNat := by
      rw [Nat.testBit_zero]
      rcases Nat.mod_two_eq_zero_or_one len.toNat with h | h <;> simp [h]
    rw [this]
    cases len.toNat.testBit 0 <;> simp
  | succ m ih =>
    rw [List.range'_concat, List.foldl_append, ih]
    simp only [List.foldl_cons, List.foldl_nil, powStep, and_one_ne_zero, one_mul]
    have e1 : mulBlock (a ^ 2 ^ m).val (a ^ 2 ^ m).val = (a ^ 2 ^ (m+1)).val := by
      rw [← F128.mul_val, ← pow_add, pow_succ]
      congr 2; omega
    rw [e1]
    have e2 : len.toNat % 2 ^ (m + 1 + 1)
        = len.toNat % 2 ^ (m + 1) + 2 ^ (m+1) * (len.toNat.testBit (m+1)).toNat := by
      rw [Nat.mod_pow_succ, Nat.testBit_eq_decide_div_mod_eq]
      rcases Nat.mod_two_eq_zero_or_one (len.toNat / 2 ^ (m+1)) with h | h <;> simp [h]
    rw [e2, Nat.add_comm 1 m]
    cases len.toNat.testBit (m+1)
    · simp
    · simp only [Bool.toNat_true, mul_one, if_true, pow_add a]
      rw [← F128.mul_val, mul_comm]

theorem powBlock_eq (a : F128) (len : BitVec 64) : powBlock a.val len = (a ^ len.toNat).val := by
  rw [powBlock, pow_loop]
  refine congrArg (fun k => (a ^ k).val) ?_
  apply Nat.mod_eq_of_lt
  have h := leadingZeros_spec len 64 len.isLt
  refine lt_of_lt_of_le h (Nat.pow_le_pow_right (by norm_num) (by omega))

/-- Horner form: `Σ x_i h^(m-i)`. -/
def hornerSum (h : F128) : List Block → F128
  | [] => 0
  | x :: xs => ⟨x⟩ * h ^ (xs.length + 1) + hornerSum h xs

theorem ghash_foldl (h : F128) (y : F128) (xs : List Block) :
    xs.foldl (fun y xi => mulBlock (y ^^^ xi) h.val) y.val
      = (y * h ^ xs.length + hornerSum h xs).val := by
  induction xs generalizing y with
  | nil => simp [hornerSum]
  | cons x xs ih =>
    simp only [List.foldl_cons, hornerSum]
    have : mulBlock (y.val ^^^ x) h.val = ((y + ⟨x⟩) * h).val := rfl
    rw [this, ih]
    refine congrArg F128.val ?_
    simp only [List.length_cons]
    ring

theorem ghash_eq_horner (h : F128) (xs : List Block) : Model.ghash h.val xs = (hornerSum h xs).val := by
  have := ghash_foldl h 0 xs
  simp only [F128.zero_val, zero_mul, zero_add] at this
  exact this

end Verif.Lemmas
