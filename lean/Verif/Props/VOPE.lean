import Verif.Model.VOPE
import Verif.Lemmas.GFRing
import Mathlib.Algebra.BigOperators.Group.Finset.Basic
import Mathlib.Algebra.BigOperators.Ring.Finset
import Mathlib.Tactic.Ring
import Mathlib.Tactic.LinearCombination

/-! C34: vector oblivious polynomial evaluation. -/

namespace Verif.Props
open Verif.Model Verif.Model.VOPE Verif.Lemmas

theorem packing_eq (pm : Block → Block → Block) (data : Nat → Block) :
    packing pm data = xorSum (List.range 128) fun j => pm (data j) (OLE.base j) := by
  have := foldl_cond_xor (List.range 128) (fun _ => true) (fun j => pm (data j) (OLE.base j)) 0#128
  simp only [if_true, BitVec.zero_xor] at this
  exact this

theorem boolToBlock_eq (bits : Nat → Bool) :
    boolToBlock bits = xorSum (List.range 128) fun j => if bits j then OLE.base j else 0#128 := by
  have := foldl_cond_xor (List.range 128) bits OLE.base 0#128
  rw [BitVec.zero_xor] at this
  exact this

theorem packing_congr (pm : Block → Block → Block) (f g : Nat → Block) (h : ∀ j < 128, f j = g j) : packing pm f = packing pm g := by
  rw [packing_eq, packing_eq]
  exact xorSum_congr _ _ _ fun i hi => by rw [h i (List.mem_range.mp hi)]

/-- A product that may be used for the packing. -/
structure Bilin (pm : Block → Block → Block) : Prop where
  left : ∀ b, Lin fun a => pm a b
  right : ∀ a, Lin (pm a)

theorem bilin_mulBlock : Bilin mulBlock := ⟨mulBlock_lin_left, mulBlock_lin_right⟩

theorem packing_corr {pm : Block → Block → Block} (hb : Bilin pm) (K : Nat → Block) (bits : Nat → Bool) (h : Block) :
    packing pm (fun j => K j ^^^ (if bits j then h else 0#128)) = packing pm K ^^^ pm h (boolToBlock bits) := by
  rw [packing_eq, packing_eq, boolToBlock_eq, (hb.right h).xorSum, ← xorSum_xor]
  apply xorSum_congr
  intro j _
  have e := hb.left (OLE.base j) (K j) (if bits j then h else 0#128)
  simp only at e
  rw [e]
  congr 1
  cases bits j
  · simp only [Bool.false_eq_true, if_false]
    rw [(hb.right h).zero]; exact (hb.left _).zero
  · simp

theorem recvMem_eq (K : Mem) (delta h : Block) (bits : Nat → Bool) (k : Nat) :
    recvMem K delta h bits k = K k ^^^ (if bits k then h else 0#128) := by
  unfold recvMem
  cases bits k
  · simp
  · simp only [if_true]
    rw [BitVec.xor_assoc, BitVec.xor_comm h, ← BitVec.xor_assoc delta, BitVec.xor_self, BitVec.zero_xor]

/-- What is read from the buffer in round `i`: rows already overwritten by the writes to `U` show those. -/
def row (oles : Nat) (bits : Nat → Bool) (m : Mem) (i : Nat) (j : Nat) : Block :=
  if oles ≤ i * 128 + j ∧ i * 128 + j < oles + i then boolToBlock fun t => bits ((i * 128 + j - oles) * 128 + t)
  else m (i * 128 + j)

theorem packLoop_spec (pm : Block → Block → Block) (oles : Nat) (bits : Nat → Bool) (m : Mem) (n : Nat) (hn : n ≤ oles) :
    (∀ i < n, packLoop pm oles bits m n i = packing pm (row oles bits m i))
    ∧ (∀ i < n, packLoop pm oles bits m n (oles + i) = boolToBlock fun t => bits (i * 128 + t))
    ∧ (∀ k, n ≤ k → ¬ (oles ≤ k ∧ k < oles + n) → packLoop pm oles bits m n k = m k) := by
  induction n with
  | zero => exact ⟨fun i hi => absurd hi (by omega), fun i hi => absurd hi (by omega), fun k _ _ => rfl⟩
  | succ n ih =>
    obtain ⟨h1, h2, h3⟩ := ih (by omega)
    have hrow : packing pm (fun j => packLoop pm oles bits m n (n * 128 + j)) = packing pm (row oles bits m n) := by
      congr 1
      funext j
      unfold row
      by_cases hc : oles ≤ n * 128 + j ∧ n * 128 + j < oles + n
      · rw [if_pos hc]
        have := h2 (n * 128 + j - oles) (by omega)
        rw [show oles + (n * 128 + j - oles) = n * 128 + j by omega] at this
        exact this
      · rw [if_neg hc, h3 _ (by omega) hc]
    refine ⟨?_, ?_, ?_⟩
    · intro i hi
      simp only [packLoop, Mem.set]
      rw [if_neg (by omega)]
      by_cases e : i = n
      · subst e; rw [if_pos rfl, hrow]
      · rw [if_neg e, h1 i (by omega)]
    · intro i hi
      simp only [packLoop, Mem.set]
      by_cases e : i = n
      · subst e; rw [if_pos rfl]
      · rw [if_neg (by omega), if_neg (by omega), h2 i (by omega)]
    · intro k hk hc
      simp only [packLoop, Mem.set]
      rw [if_neg (by omega), if_neg (by omega), h3 k (by omega) (by omega)]

/-- Without overlap the row is the original one. -/
theorem row_small (oles : Nat) (ho : oles ≤ 127) (bits : Nat → Bool) (m : Mem) (i j : Nat) :
    row oles bits m i j = m (i * 128 + j) := by
  unfold row
  rw [if_neg (by omega)]

theorem mulLoop_spec (oles i : Nat) (hi : i < oles) (out m : Mem) (n : Nat) (hn : n ≤ oles) :
    (∀ k, k < 2 * oles → mulLoop oles i out m n k = m k)
    ∧ (∀ j < n, mulLoop oles i out m n (2 * oles + j) = mulBlock (out j) (m i))
    ∧ (∀ j < n, mulLoop oles i out m n (3 * oles + j) = mulBlock (out j) (m (oles + i))) := by
  induction n with
  | zero => exact ⟨fun _ _ => rfl, fun j hj => absurd hj (by omega), fun j hj => absurd hj (by omega)⟩
  | succ n ih =>
    obtain ⟨h1, h2, h3⟩ := ih (by omega)
    refine ⟨?_, ?_, ?_⟩
    · intro k hk
      simp only [mulLoop, Mem.set]
      rw [if_neg (by omega), if_neg (by omega), h1 k hk]
    · intro j hj
      simp only [mulLoop, Mem.set]
      rw [if_neg (by omega)]
      by_cases e : j = n
      · subst e; rw [if_pos rfl, h1 i (by omega)]
      · rw [if_neg (by omega), h2 j (by omega)]
    · intro j hj
      simp only [mulLoop, Mem.set]
      by_cases e : j = n
      · subst e; rw [if_pos rfl, if_neg (by omega), h1 _ (by omega)]
      · rw [if_neg (by omega), if_neg (by omega), h3 j (by omega)]

theorem addLoop_spec (oles : Nat) (m out : Mem) (n : Nat) :
    (∀ j < n, addLoop oles m out n (j + 1) = m (3 * oles + j) ^^^ m (2 * oles + (j + 1)))
    ∧ (∀ k, k = 0 ∨ n < k → addLoop oles m out n k = out k) := by
  induction n with
  | zero => exact ⟨fun j hj => absurd hj (by omega), fun k _ => rfl⟩
  | succ n ih =>
    obtain ⟨h1, h2⟩ := ih
    constructor
    · intro j hj
      simp only [addLoop, Mem.set]
      by_cases e : j = n
      · subst e; rw [if_pos rfl]
      · rw [if_neg (by omega), h1 j (by omega)]
    · intro k hk
      simp only [addLoop, Mem.set]
      rw [if_neg (by omega), h2 k (by omega)]

/-- The coefficients after one round. -/
theorem step_spec (oles length i : Nat) (hl : oles = length * 2 - 1) (h1 : 1 ≤ i) (hi : i < length) (m out : Mem) :
    (∀ k, k < 2 * oles → (step oles length i (m, out)).1 k = m k)
    ∧ ∀ j, j ≤ i + 1 → (step oles length i (m, out)).2 j
      = ((if j ≤ i then mulBlock (out j) (m i) else 0#128) ^^^ (if 1 ≤ j then mulBlock (out (j - 1)) (m (oles + i)) else 0#128))
        ^^^ (if j = 0 then m (length + i - 1) else if j = 1 then m (oles + (length + i - 1)) else 0#128) := by
  obtain ⟨a1, a2, a3⟩ := mulLoop_spec oles i (by omega) out m (i + 1) (by omega)
  refine ⟨a1, ?_⟩
  intro j hj
  simp only [step]
  generalize hm : mulLoop oles i out m (i + 1) = m' at a1 a2 a3 ⊢
  obtain ⟨b1, b2⟩ := addLoop_spec oles m' (out.set 0 (m' (2 * oles + 0))) i
  generalize addLoop oles m' (out.set 0 (m' (2 * oles + 0))) i = o at b1 b2 ⊢
  have b0 := b2 0 (Or.inl rfl)
  simp only [Mem.set, if_true] at b0
  rw [a2 0 (by omega)] at b0
  simp only [Mem.set]
  rcases Nat.lt_or_ge 1 j with h | h
  · rw [if_neg (show ¬ j = 1 by omega), if_neg (show ¬ j = 0 by omega), if_neg (show ¬ j = 0 by omega), if_neg (show ¬ j = 1 by omega)]
    rw [if_pos (show 1 ≤ j by omega), BitVec.xor_zero]
    by_cases e : j = i + 1
    · subst e
      rw [if_pos rfl, a3 i (by omega), if_neg (by omega), BitVec.zero_xor]; rfl
    · rw [if_neg e, if_pos (by omega)]
      have := b1 (j - 1) (by omega)
      rw [show j - 1 + 1 = j by omega] at this
      rw [this, a3 _ (by omega), a2 _ (by omega), BitVec.xor_comm]
  · rcases Nat.lt_or_ge 0 j with h' | h'
    · have e : j = 1 := by omega
      subst e
      simp only [if_true, if_neg (show ¬ (1 : Nat) = 0 by omega), if_pos (show (1 : Nat) ≤ 1 by omega), if_pos h1]
      rw [if_neg (show ¬ 1 = i + 1 by omega)]
      have := b1 0 (by omega)
      rw [show (0 : Nat) + 1 = 1 from rfl] at this
      rw [this, a3 _ (by omega), a2 _ (by omega), a1 _ (by omega), BitVec.xor_comm (mulBlock (out 0) _)]
    · have e : j = 0 := by omega
      subst e
      simp only [if_true, if_neg (show ¬ (0 : Nat) = 1 by omega), if_neg (show ¬ (1 : Nat) ≤ 0 by omega), if_pos (Nat.zero_le i)]
      rw [if_neg (show ¬ 0 = i + 1 by omega), b0, a1 _ (by omega), BitVec.xor_zero]

/-- Value at `h` of the polynomial with coefficients `out 0 … out n`. -/
def evalPoly (out : Mem) (n : Nat) (h : Block) : F128 := ∑ j ∈ Finset.range (n + 1), (⟨out j⟩ : F128) * ⟨h⟩ ^ j

theorem step_eval (oles length i : Nat) (hl : oles = length * 2 - 1) (h1 : 1 ≤ i) (hi : i < length) (m out : Mem) (h : Block) :
    evalPoly (step oles length i (m, out)).2 (i + 1) h
      = evalPoly out i h * (⟨m i⟩ + ⟨m (oles + i)⟩ * ⟨h⟩) + (⟨m (length + i - 1)⟩ + ⟨m (oles + (length + i - 1))⟩ * ⟨h⟩) := by
  obtain ⟨_, hc⟩ := step_spec oles length i hl h1 hi m out
  unfold evalPoly
  have e : ∀ j ∈ Finset.range (i + 1 + 1), (⟨(step oles length i (m, out)).2 j⟩ : F128) * ⟨h⟩ ^ j
      = ((if j ≤ i then (⟨out j⟩ : F128) * ⟨m i⟩ * ⟨h⟩ ^ j else 0) + (if 1 ≤ j then (⟨out (j - 1)⟩ : F128) * ⟨m (oles + i)⟩ * ⟨h⟩ ^ j else 0))
        + (if j = 0 then (⟨m (length + i - 1)⟩ : F128) * ⟨h⟩ ^ j else if j = 1 then (⟨m (oles + (length + i - 1))⟩ : F128) * ⟨h⟩ ^ j else 0) := by
    intro j hj
    rw [hc j (by have := Finset.mem_range.mp hj; omega)]
    have s : ∀ a b c : Block, (⟨(a ^^^ b) ^^^ c⟩ : F128) = (⟨a⟩ + ⟨b⟩) + ⟨c⟩ := fun _ _ _ => rfl
    rw [s, add_mul, add_mul]
    congr 1
    · congr 1
      · split
        · rfl
        · exact zero_mul _
      · split
        · rfl
        · exact zero_mul _
    · split
      · rfl
      · split
        · rfl
        · exact zero_mul _
  rw [Finset.sum_congr rfl e, Finset.sum_add_distrib, Finset.sum_add_distrib]
  have e1 : (∑ j ∈ Finset.range (i + 1 + 1), if j ≤ i then (⟨out j⟩ : F128) * ⟨m i⟩ * ⟨h⟩ ^ j else 0)
      = (∑ j ∈ Finset.range (i + 1), (⟨out j⟩ : F128) * ⟨h⟩ ^ j) * ⟨m i⟩ := by
    rw [Finset.sum_range_succ, if_neg (by omega), add_zero, Finset.sum_mul]
    apply Finset.sum_congr rfl
    intro j hj
    rw [if_pos (by have := Finset.mem_range.mp hj; omega)]; ring
  have e2 : (∑ j ∈ Finset.range (i + 1 + 1), if 1 ≤ j then (⟨out (j - 1)⟩ : F128) * ⟨m (oles + i)⟩ * ⟨h⟩ ^ j else 0)
      = (∑ j ∈ Finset.range (i + 1), (⟨out j⟩ : F128) * ⟨h⟩ ^ j) * (⟨m (oles + i)⟩ * ⟨h⟩) := by
    rw [Finset.sum_range_succ', if_neg (by omega), add_zero, Finset.sum_mul]
    apply Finset.sum_congr rfl
    intro j hj
    rw [if_pos (by omega), Nat.add_sub_cancel]; ring
  have e3 : (∑ j ∈ Finset.range (i + 1 + 1), if j = 0 then (⟨m (length + i - 1)⟩ : F128) * ⟨h⟩ ^ j
        else if j = 1 then (⟨m (oles + (length + i - 1))⟩ : F128) * ⟨h⟩ ^ j else 0)
      = ⟨m (length + i - 1)⟩ + ⟨m (oles + (length + i - 1))⟩ * ⟨h⟩ := by
    rw [Finset.sum_range_succ', if_pos rfl, Finset.sum_range_succ']
    rw [if_neg (by omega), if_pos rfl, Finset.sum_eq_zero]
    · ring
    · intro j _
      rw [if_neg (by omega), if_neg (by omega)]
  rw [e1, e2, e3]; ring

/-- What the receiver's polynomial evaluates to, in terms of its packed rows. -/
def chain (h : Block) (m : Mem) (oles length : Nat) : Nat → F128
  | 0 => ⟨m 0⟩ + ⟨m (oles + 0)⟩ * ⟨h⟩
  | i + 1 => chain h m oles length i * (⟨m (i + 1)⟩ + ⟨m (oles + (i + 1))⟩ * ⟨h⟩)
      + (⟨m (length + (i + 1) - 1)⟩ + ⟨m (oles + (length + (i + 1) - 1))⟩ * ⟨h⟩)

theorem outer_eval (oles length : Nat) (hl : oles = length * 2 - 1) (m out : Mem) (h : Block) (h0 : out 0 = m 0)
    (h1 : out 1 = m (oles + 0)) (n : Nat) (hn : n < length) :
    (∀ k, k < 2 * oles → (outer oles length (m, out) n).1 k = m k)
    ∧ evalPoly (outer oles length (m, out) n).2 (n + 1) h = chain h m oles length n := by
  induction n with
  | zero =>
    refine ⟨fun _ _ => rfl, ?_⟩
    unfold evalPoly
    rw [Finset.sum_range_succ, Finset.sum_range_succ, Finset.sum_range_zero]
    simp only [outer, chain, h0, h1]
    ring
  | succ n ih =>
    obtain ⟨i1, i2⟩ := ih (by omega)
    have hs := step_spec oles length (n + 1) hl (by omega) hn (outer oles length (m, out) n).1 (outer oles length (m, out) n).2
    have he := step_eval oles length (n + 1) hl (by omega) hn (outer oles length (m, out) n).1 (outer oles length (m, out) n).2 h
    refine ⟨fun k hk => ?_, ?_⟩
    · rw [← i1 k hk]; exact hs.1 k hk
    · rw [i2, i1 _ (by omega), i1 _ (by omega), i1 _ (by omega), i1 _ (by omega)] at he
      exact he

/-- The receiver's polynomial for every length, before anything is said about the correlation. -/
theorem recv_chain (pm : Block → Block → Block) (K : Mem) (delta h : Block) (bits : Nat → Bool) (length : Nat) (hl : 1 ≤ length)
    (out0 : Mem) (x : Block) :
    evalPoly (recv pm K delta h bits length out0) length x
      = chain x (packLoop pm (length * 2 - 1) bits (recvMem K delta h bits) (length * 2 - 1)) (length * 2 - 1) length (length - 1) := by
  have := (outer_eval (length * 2 - 1) length rfl
    (packLoop pm (length * 2 - 1) bits (recvMem K delta h bits) (length * 2 - 1))
    ((out0.set 0 (packLoop pm (length * 2 - 1) bits (recvMem K delta h bits) (length * 2 - 1) 0)).set 1
      (packLoop pm (length * 2 - 1) bits (recvMem K delta h bits) (length * 2 - 1) (length * 2 - 1 + 0))) x rfl rfl (length - 1) (by omega)).2
  rw [show length - 1 + 1 = length by omega] at this
  exact this

/-- Without overlap in the buffer, the packed rows and the packed bits are related to the sender's rows. -/
theorem rows_small {pm : Block → Block → Block} (hb : Bilin pm) (K : Mem) (delta h : Block) (bits : Nat → Bool) (oles : Nat)
    (ho : oles ≤ 127) (i : Nat) (hi : i < oles) :
    packLoop pm oles bits (recvMem K delta h bits) oles i
      = packing pm (fun j => K (i * 128 + j)) ^^^ pm h (packLoop pm oles bits (recvMem K delta h bits) oles (oles + i)) := by
  obtain ⟨h1, h2, _⟩ := packLoop_spec pm oles bits (recvMem K delta h bits) oles (le_refl _)
  rw [h1 i hi, h2 i hi, ← packing_corr hb]
  congr 1
  funext j
  rw [row_small oles ho bits _ i j, recvMem_eq]

/-- **C34, the part that holds.**  If the packing used the product the rest of the code uses, then for every length from 1
to 64, every correlation, every point and all bits, the receiver's polynomial takes the sender's value at its point. -/
theorem C34_vope_partial (K : Mem) (delta h : Block) (bits : Nat → Bool) (length : Nat) (h1 : 1 ≤ length) (h2 : length ≤ 64)
    (out0 : Mem) :
    evalPoly (recv mulBlock K delta h bits length out0) length h = ⟨send mulBlock K length⟩ := by
  rw [recv_chain mulBlock K delta h bits length h1 out0 h]
  have hr := rows_small bilin_mulBlock K delta h bits (length * 2 - 1) (by omega)
  generalize packLoop mulBlock (length * 2 - 1) bits (recvMem K delta h bits) (length * 2 - 1) = m at hr ⊢
  have key : ∀ i, i < length * 2 - 1 → (⟨m i⟩ : F128) + ⟨m (length * 2 - 1 + i)⟩ * ⟨h⟩
      = ⟨packing mulBlock fun j => K (i * 128 + j)⟩ := by
    intro i hi
    have e : (⟨m i⟩ : F128) = ⟨packing mulBlock fun j => K (i * 128 + j)⟩ + ⟨h⟩ * ⟨m (length * 2 - 1 + i)⟩ := by
      rw [hr i hi]; rfl
    rw [e, add_assoc, mul_comm (⟨h⟩ : F128), F128.add_self, add_zero]
  have ind : ∀ n, n < length → chain h m (length * 2 - 1) length n = ⟨sendLoop mulBlock K length n⟩ := by
    intro n
    induction n with
    | zero =>
      intro _
      simp only [chain]
      rw [key 0 (by omega)]
      simp only [sendLoop]
      congr 2
      funext j; rw [Nat.zero_mul, Nat.zero_add]
    | succ n ih =>
      intro hn
      simp only [chain]
      rw [ih (by omega), key _ (by omega), key _ (by omega), show length + (n + 1) - 1 = n + 1 + length - 1 by omega]
      rfl
  exact ind (length - 1) (by omega)

/-! ### The defects -/

theorem timesX_lin : Lin timesX := by
  intro a b
  unfold timesX
  have := lin_bit (n := 128) (m := 128) 127 0x87#128
  have e := this a b
  have e2 := lin_shiftLeft (n := 128) 1 a b
  simp only at e e2
  rw [e, e2]
  ac_rfl

theorem gfmul_eq (a b : Block) : gfmul a b = xorSum (List.range 128) fun j => if b.getLsbD j then timesXPow a j else 0#128 := by
  have := foldl_cond_xor (List.range 128) b.getLsbD (timesXPow a) 0#128
  rw [BitVec.zero_xor] at this
  exact this

theorem timesXPow_lin (j : Nat) : Lin fun a => timesXPow a j := by
  induction j with
  | zero => exact lin_id
  | succ j ih => exact timesX_lin.comp ih

theorem bilin_gfmul : Bilin gfmul := by
  constructor
  · intro b x y
    simp only [gfmul_eq]
    rw [← xorSum_xor]
    apply xorSum_congr
    intro j _
    cases b.getLsbD j
    · simp
    · exact timesXPow_lin j x y
  · intro a x y
    simp only [gfmul_eq]
    rw [← xorSum_xor]
    apply xorSum_congr
    intro j _
    rw [BitVec.getLsbD_xor]
    cases x.getLsbD j <;> cases y.getLsbD j <;> simp

/-- A single evaluation (length 1) is right, for the product of the packing. -/
theorem C34_length_one (K : Mem) (delta h : Block) (bits : Nat → Bool) (out0 : Mem) :
    send gfmul K 1 = recv gfmul K delta h bits 1 out0 0 ^^^ gfmul h (recv gfmul K delta h bits 1 out0 1) := by
  have hr := rows_small bilin_gfmul K delta h bits 1 (by omega) 0 (by omega)
  have e0 : recv gfmul K delta h bits 1 out0 0 = packLoop gfmul 1 bits (recvMem K delta h bits) 1 0 := by
    simp only [recv, show 1 * 2 - 1 = 1 from rfl, show 1 - 1 = 0 from rfl, outer, Mem.set]
    rw [if_neg (by omega), if_pos trivial]
  have e1 : recv gfmul K delta h bits 1 out0 1 = packLoop gfmul 1 bits (recvMem K delta h bits) 1 (1 + 0) := by
    simp only [recv, show 1 * 2 - 1 = 1 from rfl, show 1 - 1 = 0 from rfl, outer, Mem.set, if_true]
  rw [e0, e1, hr, BitVec.xor_assoc, BitVec.xor_self, BitVec.xor_zero]
  have e2 : send gfmul K 1 = packing gfmul K := rfl
  have e3 : (fun j => K (0 * 128 + j)) = K := by funext j; rw [Nat.zero_mul, Nat.zero_add]
  rw [e2, e3]

theorem packing_single (pm : Block → Block → Block) (hb : Bilin pm) (f : Nat → Block) (c : Nat) (hc : c < 128)
    (h : ∀ j < 128, j ≠ c → f j = 0#128) : packing pm f = pm (f c) (OLE.base c) := by
  rw [packing_eq]
  apply xorSum_range_single 128 c hc
  intro j hj hne
  rw [h j hj hne]
  exact (hb.left _).zero

theorem gfmul_base0 (x : Block) : gfmul x (OLE.base 0) = x := by
  rw [gfmul_eq]
  rw [xorSum_range_single 128 0 (by omega)]
  · rfl
  · intro i hi hne
    have : (OLE.base 0).getLsbD i = false := by
      simp [OLE.base, BitVec.getLsbD_twoPow]; omega
    rw [this]; rfl

/-- Powers and value of a polynomial for emp-tool's product. -/
def gfpow (h : Block) : Nat → Block
  | 0 => 1#128
  | n + 1 => gfmul (gfpow h n) h

def evalGf (out : Mem) (n : Nat) (h : Block) : Block := xorSum (List.range (n + 1)) fun j => gfmul (out j) (gfpow h j)

/-- A run on which the two products disagree. -/
def mixU : Block := BitVec.twoPow 128 127
def mixH : Block := 2#128
def mixV : Block := 5#128
def mixK (length : Nat) : Mem := fun k =>
  if k = 0 then gfmul mixH mixU else if k = 128 then mixV
  else if k % 128 = 0 ∧ k / 128 < length then oneBlock else 0#128
def mixBits : Nat → Bool := fun k => decide (k < 128) && mixU.getLsbD k

theorem mix_bits0 : (boolToBlock fun t => mixBits (0 * 128 + t)) = mixU := by decide +kernel

theorem mix_bits (i : Nat) (hi : 1 ≤ i) : (boolToBlock fun t => mixBits (i * 128 + t)) = 0#128 := by
  rw [boolToBlock_eq]
  apply xorSum_zero
  intro j _
  have : mixBits (i * 128 + j) = false := by
    simp only [mixBits]; rw [decide_eq_false (by omega)]; rfl
  rw [this]; rfl

theorem mix_row (length i : Nat) (hi : i < length * 2 - 1) :
    (packing gfmul fun j => mixK length (i * 128 + j))
      = if i = 0 then gfmul mixH mixU else if i = 1 then mixV
        else if i < length then oneBlock else 0#128 := by
  rw [packing_single gfmul bilin_gfmul _ 0 (by omega), gfmul_base0]
  · simp only [mixK, Nat.add_zero]
    by_cases e0 : i = 0
    · subst e0; simp
    · by_cases e1 : i = 1
      · subst e1; simp
      · rw [if_neg (by omega), if_neg (by omega), if_neg e0, if_neg e1]
        by_cases h : i < length
        · rw [if_pos ⟨by omega, by omega⟩, if_pos h]
        · rw [if_neg (by omega), if_neg h]
  · intro j hj hne
    simp only [mixK]
    rw [if_neg (by omega), if_neg (by omega), if_neg (by omega)]

theorem mulBlock_one_right (a : Block) : mulBlock a oneBlock = a := by
  have : (⟨a⟩ : F128) * 1 = ⟨a⟩ := mul_one _
  exact congrArg F128.val this

theorem mulBlock_zero_left (a : Block) : mulBlock 0#128 a = 0#128 := (mulBlock_lin_left a).zero
theorem mulBlock_zero_right (a : Block) : mulBlock a 0#128 = 0#128 := (mulBlock_lin_right a).zero

theorem mix_coeffs (length : Nat) (h2 : 2 ≤ length) (h64 : length ≤ 64) (delta : Block) (out0 : Mem) :
    ∀ j, j ≤ length → recv gfmul (mixK length) delta mixH mixBits length out0 j = if j = 1 then mulBlock mixU mixV else 0#128 := by
  have hr := rows_small bilin_gfmul (mixK length) delta mixH mixBits (length * 2 - 1) (by omega)
  obtain ⟨_, hu, _⟩ := packLoop_spec gfmul (length * 2 - 1) mixBits (recvMem (mixK length) delta mixH mixBits) (length * 2 - 1) (le_refl _)
  simp only [recv]
  generalize packLoop gfmul (length * 2 - 1) mixBits (recvMem (mixK length) delta mixH mixBits) (length * 2 - 1) = m at hr hu ⊢
  have u0 : m (length * 2 - 1 + 0) = mixU := by rw [hu 0 (by omega)]; exact mix_bits0
  have ui : ∀ i, 1 ≤ i → i < length * 2 - 1 → m (length * 2 - 1 + i) = 0#128 := fun i h1 h => by rw [hu i h]; exact mix_bits i h1
  have m0 : m 0 = 0#128 := by
    rw [hr 0 (by omega), mix_row _ _ (by omega), if_pos rfl, u0, BitVec.xor_self]
  have mi : ∀ i, 1 ≤ i → i < length * 2 - 1 → m i = if i = 1 then mixV else if i < length then oneBlock else 0#128 := by
    intro i h1 h
    rw [hr i h, mix_row _ _ h, ui i h1 h, (bilin_gfmul.right _).zero, BitVec.xor_zero, if_neg (by omega)]
  have key : ∀ n, n < length →
      (∀ k, k < 2 * (length * 2 - 1) → (outer (length * 2 - 1) length (m, (out0.set 0 (m 0)).set 1 (m (length * 2 - 1 + 0))) n).1 k = m k)
      ∧ ∀ j, j ≤ n + 1 → (outer (length * 2 - 1) length (m, (out0.set 0 (m 0)).set 1 (m (length * 2 - 1 + 0))) n).2 j
        = if j = 1 then (if n = 0 then mixU else mulBlock mixU mixV) else 0#128 := by
    intro n
    induction n with
    | zero =>
      intro _
      refine ⟨fun _ _ => rfl, ?_⟩
      intro j hj
      simp only [outer, Mem.set]
      rcases Nat.lt_or_ge 0 j with h | h
      · have : j = 1 := by omega
        subst this; simp only [if_true]; exact u0
      · have : j = 0 := by omega
        subst this; rw [if_neg (by omega), if_pos rfl, if_neg (by omega), m0]
    | succ n ih =>
      intro hn
      obtain ⟨i1, i2⟩ := ih (by omega)
      obtain ⟨s1, s2⟩ := step_spec (length * 2 - 1) length (n + 1) rfl (by omega) hn
        (outer (length * 2 - 1) length (m, (out0.set 0 (m 0)).set 1 (m (length * 2 - 1 + 0))) n).1
        (outer (length * 2 - 1) length (m, (out0.set 0 (m 0)).set 1 (m (length * 2 - 1 + 0))) n).2
      refine ⟨fun k hk => by rw [← i1 k hk]; exact s1 k hk, ?_⟩
      intro j hj
      have := s2 j hj
      rw [i1 _ (by omega), i1 _ (by omega), i1 _ (by omega), i1 _ (by omega), ui (n + 1) (by omega) (by omega),
        ui (length + (n + 1) - 1) (by omega) (by omega), mi (length + (n + 1) - 1) (by omega) (by omega),
        if_neg (show ¬ length + (n + 1) - 1 = 1 by omega), if_neg (show ¬ length + (n + 1) - 1 < length by omega),
        mulBlock_zero_right, ite_self, ite_self, ite_self, BitVec.xor_zero, BitVec.xor_zero, mi (n + 1) (by omega) (by omega),
        if_pos hn] at this
      refine this.trans ?_
      rw [if_neg (show ¬ n + 1 = 0 by omega)]
      by_cases hj2 : j ≤ n + 1
      · rw [if_pos hj2, i2 j hj2]
        by_cases e : j = 1
        · rw [if_pos e, if_pos e]
          by_cases en : n = 0
          · rw [if_pos en, if_pos (by omega)]
          · rw [if_neg en, if_neg (by omega), mulBlock_one_right]
        · rw [if_neg e, if_neg e, mulBlock_zero_left]
      · rw [if_neg hj2, if_neg (by omega)]
  intro j hj
  rw [(key (length - 1) (by omega)).2 j (by omega), if_neg (show ¬ length - 1 = 0 by omega)]

theorem mix_send (length : Nat) (h2 : 2 ≤ length) : send gfmul (mixK length) length = mulBlock (gfmul mixH mixU) mixV := by
  have key : ∀ n, n < length → sendLoop gfmul (mixK length) length n
      = if n = 0 then gfmul mixH mixU else mulBlock (gfmul mixH mixU) mixV := by
    intro n
    induction n with
    | zero =>
      intro _
      simp only [sendLoop, if_true]
      have := mix_row length 0 (by omega)
      simp only [Nat.zero_mul, Nat.zero_add, if_true] at this
      exact this
    | succ n ih =>
      intro hn
      simp only [sendLoop]
      rw [ih (by omega), mix_row length (n + 1) (by omega), mix_row length (n + 1 + length - 1) (by omega),
        if_neg (show ¬ n + 1 + length - 1 = 0 by omega), if_neg (show ¬ n + 1 + length - 1 = 1 by omega),
        if_neg (show ¬ n + 1 + length - 1 < length by omega), if_neg (show ¬ n + 1 = 0 by omega),
        if_neg (show ¬ n + 1 = 0 by omega), BitVec.xor_zero]
      by_cases en : n = 0
      · subst en; simp
      · rw [if_neg en, if_neg (by omega), if_pos hn, mulBlock_one_right]
  unfold send
  rw [key _ (by omega), if_neg (by omega)]

/-- **C34 fails for the code as it is**: from length 2 on the packing (emp-tool's product) and the rest (`mulBlock`) use
different products, and there are correlations for which the sender's value is not the value of the receiver's polynomial,
whichever of the two products is used to evaluate it. -/
theorem C34_mixed_products (length : Nat) (h2 : 2 ≤ length) (h64 : length ≤ 64) :
    ∃ (K : Mem) (h : Block) (bits : Nat → Bool), ∀ (delta : Block) (out0 : Mem),
      evalPoly (recv gfmul K delta h bits length out0) length h ≠ ⟨send gfmul K length⟩
      ∧ evalGf (recv gfmul K delta h bits length out0) length h ≠ send gfmul K length := by
  refine ⟨mixK length, mixH, mixBits, fun delta out0 => ?_⟩
  have hc := mix_coeffs length h2 h64 delta out0
  rw [mix_send length h2]
  constructor
  · have : evalPoly (recv gfmul (mixK length) delta mixH mixBits length out0) length mixH = ⟨mulBlock (mulBlock mixU mixV) mixH⟩ := by
      unfold evalPoly
      rw [Finset.sum_eq_single 1]
      · rw [hc 1 (by omega), if_pos rfl, pow_one]; rfl
      · intro j hj hne
        rw [hc j (by have := Finset.mem_range.mp hj; omega), if_neg hne]
        exact zero_mul _
      · intro hn
        exact absurd (Finset.mem_range.mpr (by omega)) hn
    rw [this]
    intro hh
    exact absurd (congrArg F128.val hh) (by decide +kernel)
  · have : evalGf (recv gfmul (mixK length) delta mixH mixBits length out0) length mixH = gfmul (mulBlock mixU mixV) (gfpow mixH 1) := by
      unfold evalGf
      rw [xorSum_range_single _ 1 (by omega)]
      · rw [hc 1 (by omega), if_pos rfl]
      · intro j hj hne
        rw [hc j (by omega), if_neg hne]
        exact (bilin_gfmul.left _).zero
    rw [this]
    decide +kernel

/-- The rows used to show the overlap: entry `c` of every row below `length` is the inverse of the unit vector `c`. -/
def longK (length : Nat) : Mem := fun k =>
  if k % 128 = (length * 2 - 1) % 128 ∧ k / 128 < length then invBlock (OLE.base ((length * 2 - 1) % 128)) else 0#128

theorem base_ne_zero (c : Nat) (hc : c < 128) : OLE.base c ≠ 0#128 := by
  intro h
  have : (OLE.base c).getLsbD c = true := by simp [OLE.base, hc]
  rw [h] at this
  simp at this

theorem long_row (length i : Nat) :
    (packing mulBlock fun j => longK length (i * 128 + j)) = if i < length then oneBlock else 0#128 := by
  have hc : (length * 2 - 1) % 128 < 128 := Nat.mod_lt _ (by omega)
  rw [packing_single mulBlock bilin_mulBlock _ ((length * 2 - 1) % 128) hc]
  · simp only [longK]
    by_cases h : i < length
    · rw [if_pos ⟨by omega, by omega⟩, if_pos h]
      have hne : (⟨OLE.base ((length * 2 - 1) % 128)⟩ : F128) ≠ 0 := fun e => base_ne_zero _ hc (congrArg F128.val e)
      have := F128.mul_invBlock _ hne
      rw [mul_comm] at this
      exact congrArg F128.val this
    · rw [if_neg (by omega), if_neg h]
      exact mulBlock_zero_left _
  · intro j hj hne
    simp only [longK]
    rw [if_neg (by omega)]

theorem boolToBlock_false : (boolToBlock fun _ => false) = 0#128 := by
  rw [boolToBlock_eq]
  exact xorSum_zero _ _ fun _ _ => rfl

/-- **C34 fails for length 65 and more**, even with a single product: the array `U` overlaps rows of the correlation that
are packed later. -/
theorem C34_long (length : Nat) (h65 : 65 ≤ length) (delta : Block) (out0 : Mem) :
    evalPoly (recv mulBlock (longK length) delta 0#128 (fun _ => false) length out0) length 0#128
      ≠ ⟨send mulBlock (longK length) length⟩ := by
  have hs : ∀ n, n < length → sendLoop mulBlock (longK length) length n = oneBlock := by
    intro n
    induction n with
    | zero =>
      intro _
      have := long_row length 0
      simp only [Nat.zero_mul, Nat.zero_add] at this
      simp only [sendLoop]
      rw [this, if_pos (by omega)]
    | succ n ih =>
      intro hn
      simp only [sendLoop]
      rw [ih (by omega), long_row, long_row, if_pos hn, if_neg (by omega), mulBlock_one_right, BitVec.xor_zero]
  unfold send
  rw [hs _ (by omega), recv_chain _ _ _ _ _ _ (by omega)]
  obtain ⟨p1, p2, _⟩ := packLoop_spec mulBlock (length * 2 - 1) (fun _ => false)
    (recvMem (longK length) delta 0#128 fun _ => false) (length * 2 - 1) (le_refl _)
  generalize packLoop mulBlock (length * 2 - 1) (fun _ => false) (recvMem (longK length) delta 0#128 fun _ => false) (length * 2 - 1) = m
    at p1 p2 ⊢
  have hu : ∀ i, i < length * 2 - 1 → m (length * 2 - 1 + i) = 0#128 := fun i hi => by rw [p2 i hi]; exact boolToBlock_false
  have hzero : ∀ i, i < length * 2 - 1 → (length ≤ i ∨ i = (length * 2 - 1) / 128) → m i = 0#128 := by
    intro i hi hor
    rw [p1 i hi]
    rw [packing_eq]
    apply xorSum_zero
    intro j hj
    have hj := List.mem_range.mp hj
    have : row (length * 2 - 1) (fun _ => false) (recvMem (longK length) delta 0#128 fun _ => false) i j = 0#128 := by
      unfold row
      split
      · exact boolToBlock_false
      · rename_i hcond
        rw [recvMem_eq]
        simp only [Bool.false_eq_true, if_false, BitVec.xor_zero, longK]
        rw [if_neg]
        intro ⟨a, b⟩
        rcases hor with h | h
        · omega
        · have e1 := Nat.div_add_mod (length * 2 - 1) 128
          omega
    rw [this]
    exact mulBlock_zero_left _
  have hch : ∀ n, n < length → (length * 2 - 1) / 128 ≤ n → chain 0#128 m (length * 2 - 1) length n = 0 := by
    intro n
    induction n with
    | zero => intro _ h; omega
    | succ n ih =>
      intro hn hle
      simp only [chain]
      rw [hu _ (by omega), hu _ (by omega), hzero (length + (n + 1) - 1) (by omega) (Or.inl (by omega))]
      have z : (⟨0#128⟩ : F128) = 0 := rfl
      rw [z]
      by_cases e : n + 1 = (length * 2 - 1) / 128
      · rw [hzero (n + 1) (by omega) (Or.inr e), z]; ring
      · rw [ih (by omega) (by omega)]; ring
  rw [hch _ (by omega) (by omega)]
  intro hh
  exact absurd (congrArg F128.val hh) (by decide)

/-- A run within the proved part, with non-zero coefficients. -/
example : (recv mulBlock (fun k => BitVec.ofNat 128 (k + 3)) 9#128 6#128 (fun k => k % 3 == 0) 1 (fun _ => 0#128) 1) ≠ 0#128 := by
  decide +kernel

end Verif.Props
