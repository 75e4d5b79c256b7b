import Verif.Lemmas.GCM
import Mathlib.Data.List.Rotate

/-!
C01, C02: rotations of secret integers, and conversion of secret integers to blocks.
-/

namespace Verif.Props
open Verif.Model Verif.Model.Integer Verif.Lemmas Verif.Spec.Encoding

/-! ### C01 -/

theorem shl_eq (x : Integer) (k : Nat) (h : k ≤ x.length) : shl x k = List.replicate k false ++ x.take (x.length - k) := by
  rw [shl, if_neg (by omega)]

theorem shr_eq (x : Integer) (k : Nat) (h : k ≤ x.length) : shr x k = x.drop k ++ List.replicate k false := by
  rw [shr, if_neg (by omega)]

/-- C01: `rrot` is the rotation of the bits to the less significant end, for every amount up to the width. -/
theorem C01_rrot (x : Integer) (k : Nat) (h : k ≤ x.length) : rrot x k = x.rotate k := by
  rw [rrot, shr_eq x k h, shl_eq x (x.length - k) (by omega), xor_append (by simp), xor_zeros_left _ _ (by simp; omega),
    xor_zeros_right _ _ (by simp)]
  rw [List.rotate_eq_drop_append_take h]
  congr 2
  omega

/-- C01: `lrot` is the rotation in the other direction: in the most-significant-first reading, `k` places to the left. -/
theorem C01_lrot (x : Integer) (k : Nat) (h : k ≤ x.length) : (lrot x k).reverse = x.reverse.rotate k := by
  rw [lrot, shl_eq x k h, shr_eq x (x.length - k) (by omega), xor_append (by simp; omega), xor_zeros_left _ _ (by simp; omega),
    xor_zeros_right _ _ (by simp)]
  rw [List.rotate_eq_drop_append_take (by simpa using h), List.reverse_append, List.drop_reverse, List.take_reverse]

theorem lrot_eq (x : Integer) (k : Nat) (h : k ≤ x.length) : lrot x k = x.rotate (x.length - k) := by
  apply List.reverse_injective
  rw [C01_lrot x k h, List.rotate_eq_drop_append_take (by simpa using h), List.rotate_eq_drop_append_take (by omega), List.reverse_append,
    List.drop_reverse, List.take_reverse]

/-- C01: each of the two rotations undoes the other. -/
theorem C01_rotations_inverse (x : Integer) (k : Nat) (h : k ≤ x.length) : lrot (rrot x k) k = x ∧ rrot (lrot x k) k = x := by
  have hr : (rrot x k).length = x.length := by rw [C01_rrot x k h, List.length_rotate]
  have hl : (lrot x k).length = x.length := by rw [lrot_eq x k h, List.length_rotate]
  constructor
  · rw [lrot_eq _ _ (by omega), hr, C01_rrot x k h, List.rotate_rotate, Nat.add_sub_cancel' h, List.rotate_length]
  · rw [C01_rrot _ _ (by omega), lrot_eq x k h, List.rotate_rotate, Nat.sub_add_cancel h, List.rotate_length]

example : rrot (ofNat 32 0x80000001) 7 = ofNat 32 0x03000000 ∧ lrot (ofNat 32 0x80000001) 7 = ofNat 32 0xc0 := by decide

/-! ### C02 -/

/-- C02: `integer_to_block` keeps the value, and refuses exactly the integers that do not have 128 bits. -/
theorem C02_integer (x : Integer) :
    (∀ b, integerToBlock x = .ok b ↔ x.length = 128 ∧ b.toNat = val x)
      ∧ ((∃ e, integerToBlock x = .error e) ↔ x.length ≠ 128) := by
  by_cases h : x.length = 128
  · rw [integerToBlock_eq x h]
    have hv : (AEAD.blk x).toNat = val x := by
      have := val_lt x
      rw [h] at this
      rw [AEAD.blk, BitVec.toNat_ofNat, Nat.mod_eq_of_lt this]
    refine ⟨fun b => ?_, by simp [h]⟩
    rw [Except.ok.injEq, ← hv]
    exact ⟨fun e => ⟨h, by rw [e]⟩, fun e => (BitVec.eq_of_toNat_eq e.2).symm⟩
  · have : integerToBlock x = .error (.error "the length of input should be 128!") := by rw [integerToBlock, if_pos h]
    rw [this]
    simp [h]

/-- C02: on an integer of several blocks, `integer_to_block` writes the blocks from the most significant end: their positional value is that of
the integer.  Exactly the integers whose width is no multiple of 128 are refused. -/
theorem C02_integer_blocks (x : Integer) :
    (x.length % 128 = 0 → ∃ bs, integerToBlocks x = .ok bs ∧ bs.length = x.length / 128 ∧ positional 128 (bs.map BitVec.toNat) = val x)
      ∧ ((∃ e, integerToBlocks x = .error e) ↔ x.length % 128 ≠ 0) := by
  have key : ∀ (n : Nat) (x : Integer), x.length = 128 * n → ∃ bs,
      integersToBlocks ((List.range n).map fun i => (x.drop (x.length - 128 * (i + 1))).take 128) = .ok bs ∧ bs.length = n
        ∧ positional 128 (bs.map BitVec.toNat) = val x := by
    intro n
    induction n with
    | zero =>
      intro x hx
      have : x = [] := List.eq_nil_of_length_eq_zero (by omega)
      subst this
      exact ⟨[], rfl, rfl, rfl⟩
    | succ n ih =>
      intro x hx
      obtain ⟨bs, e1, e2, e3⟩ := ih (x.take (128 * n)) (by simp; omega)
      have hl : (x.drop (128 * n)).length = 128 := by simp; omega
      have hmap : (List.range (n + 1)).map (fun i => (x.drop (x.length - 128 * (i + 1))).take 128)
          = x.drop (128 * n) :: (List.range n).map (fun i => ((x.take (128 * n)).drop ((x.take (128 * n)).length - 128 * (i + 1))).take 128) := by
        rw [List.range_succ_eq_map, List.map_cons, List.map_map]
        have a0 : x.length - 128 * (0 + 1) = 128 * n := by omega
        refine congrArg₂ List.cons ?_ ?_
        · rw [a0, List.take_of_length_le (by rw [hl])]
        · refine List.map_congr_left fun i hi => ?_
          have hi' := List.mem_range.mp hi
          have e : (x.take (128 * n)).length = 128 * n := by simp; omega
          rw [e]
          simp only [Function.comp_apply]
          rw [List.drop_take, List.take_take]
          have a1 : x.length - 128 * (i + 1 + 1) = 128 * n - 128 * (i + 1) := by omega
          have a2 : min 128 (128 * n - (128 * n - 128 * (i + 1))) = 128 := by omega
          rw [Nat.succ_eq_add_one, a1, a2]
      refine ⟨AEAD.blk (x.drop (128 * n)) :: bs, ?_, by simp [e2], ?_⟩
      · rw [hmap]
        unfold integersToBlocks at e1 ⊢
        rw [List.mapM_cons, integerToBlock_eq _ hl, e1]
        rfl
      · have hv := ((C02_integer (x.drop (128 * n))).1 (AEAD.blk (x.drop (128 * n)))).mp (integerToBlock_eq _ hl)
        rw [List.map_cons, positional, e3, hv.2, List.length_map, e2]
        have : val x = val (x.take (128 * n) ++ x.drop (128 * n)) := by rw [List.take_append_drop]
        rw [this, val_append]
        have e : (x.take (128 * n)).length = 128 * n := by simp; omega
        rw [e, ← pow_mul]
        ring
  constructor
  · intro h
    obtain ⟨bs, h1, h2, h3⟩ := key (x.length / 128) x (by omega)
    exact ⟨bs, by rw [integerToBlocks, if_neg (by simpa using h)]; exact h1, h2, h3⟩
  · by_cases h : x.length % 128 = 0
    · obtain ⟨bs, h1, -⟩ := key (x.length / 128) x (by omega)
      have : integerToBlocks x = .ok bs := by rw [integerToBlocks, if_neg (by simpa using h)]; exact h1
      rw [this]
      simp [h]
    · have : integerToBlocks x = .error (.error "the length of input should be multiples of 128!") := by rw [integerToBlocks, if_pos h]
      rw [this]
      simp [h]

example : ∃ bs, integerToBlocks (ofNat 256 (7 * 2 ^ 128 + 5)) = .ok bs ∧ positional 128 (bs.map BitVec.toNat) = 7 * 2 ^ 128 + 5 := by
  obtain ⟨bs, h1, -, h2⟩ := (C02_integer_blocks (ofNat 256 (7 * 2 ^ 128 + 5))).1 (by simp)
  exact ⟨bs, h1, h2.trans (by rw [val_ofNat]; rfl)⟩

end Verif.Props
