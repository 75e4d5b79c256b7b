import Verif.Model.BlockConv
import Verif.Spec.SHA256

/-! Lemmas about the `Integer` model: values, lengths, reversed (most significant first) view. -/

namespace Verif.Lemmas
open Verif.Model Verif.Model.Integer

@[simp] theorem length_ofNat (n v : Nat) : (ofNat n v).length = n := by
  induction n generalizing v with
  | zero => rfl
  | succ n ih => simp [ofNat, ih]

theorem val_ofNat (n v : Nat) : val (ofNat n v) = v % 2 ^ n := by
  induction n generalizing v with
  | zero => simp [ofNat, val, Nat.mod_one]
  | succ n ih =>
    simp only [ofNat, val, ih]
    rw [Nat.pow_succ, Nat.mul_comm (2 ^ n) 2, Nat.mod_mul]
    rcases Nat.mod_two_eq_zero_or_one v with h | h <;> simp [h]

theorem val_lt (x : Integer) : val x < 2 ^ x.length := by
  induction x with
  | nil => simp [val]
  | cons b bs ih =>
    simp only [val, List.length_cons, Nat.pow_succ]
    have : b.toNat ≤ 1 := by cases b <;> simp
    omega

theorem ofNat_val (x : Integer) : ofNat x.length (val x) = x := by
  induction x with
  | nil => rfl
  | cons b bs ih =>
    simp only [val, List.length_cons, ofNat]
    congr 1
    · cases b
      · have : (2 * val bs) % 2 = 0 := by omega
        simp [this]
      · have : (1 + 2 * val bs) % 2 = 1 := by omega
        simp [this]
    · have : (b.toNat + 2 * val bs) / 2 = val bs := by cases b <;> simp <;> omega
      rw [this, ih]

theorem val_inj {x y : Integer} (hl : x.length = y.length) (hv : val x = val y) : x = y := by
  rw [← ofNat_val x, ← ofNat_val y, hl, hv]

theorem val_append (x y : Integer) : val (x ++ y) = val x + 2 ^ x.length * val y := by
  induction x with
  | nil => simp [val]
  | cons b bs ih =>
    simp only [List.cons_append, val, ih, List.length_cons, Nat.pow_succ]
    rw [Nat.mul_add, ← Nat.mul_assoc, Nat.mul_comm 2 (2 ^ bs.length), Nat.add_assoc]

theorem val_replicate_false (n : Nat) : val (List.replicate n false) = 0 := by
  induction n with
  | zero => rfl
  | succ n ih => simp [List.replicate_succ, val, ih]

theorem ofNat_zero (n : Nat) : ofNat n 0 = List.replicate n false := by
  apply val_inj
  · simp
  · rw [val_ofNat, val_replicate_false]; simp

theorem ofNat_mod (n v : Nat) : ofNat n (v % 2 ^ n) = ofNat n v := by
  apply val_inj
  · simp
  · rw [val_ofNat, val_ofNat, Nat.mod_mod]

theorem getElem_ofNat (n v i : Nat) (h : i < (ofNat n v).length) : (ofNat n v)[i] = v.testBit i := by
  induction n generalizing v i with
  | zero => simp at h
  | succ n ih =>
    cases i with
    | zero => simp [ofNat, Nat.testBit_zero]; rfl
    | succ i =>
      simp only [ofNat, List.getElem_cons_succ]
      rw [ih, Nat.testBit_succ]

theorem testBit_val (x : Integer) (i : Nat) : (val x).testBit i = x.getD i false := by
  by_cases h : i < x.length
  · have := getElem_ofNat x.length (val x) i (by simpa using h)
    rw [← this]
    have e : ofNat x.length (val x) = x := ofNat_val x
    simp only [e]
    simp [List.getD_eq_getElem?_getD, h]
  · have h1 : val x < 2 ^ i :=
      Nat.lt_of_lt_of_le (val_lt x) (Nat.pow_le_pow_right (by omega) (by omega))
    rw [Nat.testBit_lt_two_pow h1]
    simp [List.getD_eq_getElem?_getD, List.getElem?_eq_none (by omega : x.length ≤ i)]

@[simp] theorem length_add (a b : Integer) : (add a b).length = a.length := by simp [Integer.add]
@[simp] theorem length_sub (a b : Integer) : (sub a b).length = a.length := by simp [Integer.sub]
@[simp] theorem length_shl (a : Integer) (k : Nat) : (shl a k).length = a.length := by
  unfold Integer.shl; split <;> simp; omega
@[simp] theorem length_shr (a : Integer) (k : Nat) : (shr a k).length = a.length := by
  unfold Integer.shr; split <;> simp; omega
@[simp] theorem length_xor (a b : Integer) : (Integer.xor a b).length = min a.length b.length := by
  simp [Integer.xor]
@[simp] theorem length_and (a b : Integer) : (Integer.and a b).length = min a.length b.length := by
  simp [Integer.and]
@[simp] theorem length_rrot (a : Integer) (k : Nat) : (rrot a k).length = a.length := by
  simp [rrot]

/-! ### Concatenation -/

theorem concat_eq (res : Integer) (ins : List Integer) : concat res ins = ins.reverse.flatten ++ res := by
  unfold concat
  induction ins generalizing res with
  | nil => rfl
  | cons x xs ih => simp [ih]

theorem concat_reverse (res : Integer) (ins : List Integer) :
    (concat res ins).reverse = res.reverse ++ (ins.map List.reverse).flatten := by
  rw [concat_eq, List.reverse_append, List.reverse_flatten]
  simp

theorem concatOpt_eq (res : Integer) (ins : List Integer) : concatOpt res ins = concat res ins := by
  rw [concat_eq, concatOpt]
  congr 1
  have : ∀ (l : List Integer) (acc : Integer),
      l.foldl (fun tmp x => tmp ++ x) acc = acc ++ l.flatten := by
    intro l
    induction l with
    | nil => simp
    | cons x xs ih => intro acc; simp [ih]
  rw [this]; simp

theorem reverseConcat_eq (res : Integer) (ins : List Integer) :
    reverseConcat res ins = res ++ ins.flatten := by
  unfold reverseConcat
  induction ins generalizing res with
  | nil => simp
  | cons x xs ih => simp [ih]

theorem extract_reverse (src : Integer) (offset size : Nat) (h : offset + size ≤ src.length) :
    ∃ r, extractInteger src offset size = .ok r ∧ r.reverse = (src.reverse.drop offset).take size := by
  refine ⟨_, by rw [extractInteger, if_pos h], ?_⟩
  rw [List.drop_reverse, List.take_reverse]
  congr 1
  apply List.ext_getElem
  · simp; omega
  · intro i h1 h2
    simp only [List.getElem_take, List.getElem_drop]
    congr 1; simp

/-! ### Bits most significant first and numbers -/

open Verif.Spec.SHA256 in
theorem bitsToNat_append_singleton (l : List Bool) (b : Bool) :
    bitsToNat (l ++ [b]) = 2 * bitsToNat l + b.toNat := by
  simp [bitsToNat]

open Verif.Spec.SHA256 in
theorem bitsToNat_reverse (x : Integer) : bitsToNat x.reverse = val x := by
  induction x with
  | nil => rfl
  | cons b bs ih => rw [List.reverse_cons, bitsToNat_append_singleton, ih, val]; omega

open Verif.Spec.SHA256 in
@[simp] theorem length_beBits (n v : Nat) : (beBits n v).length = n := by
  induction n with
  | zero => rfl
  | succ n ih => simp [beBits, ih]

open Verif.Spec.SHA256 in
theorem ofNat_reverse (n v : Nat) : (ofNat n v).reverse = beBits n v := by
  apply List.ext_getElem
  · simp
  · intro i h1 h2
    simp only [List.getElem_reverse, getElem_ofNat]
    simp only [List.length_reverse, length_ofNat] at h1
    simp only [length_ofNat]
    have key : ∀ (n i : Nat) (h : i < (beBits n v).length), (beBits n v)[i] = v.testBit (n - 1 - i) := by
      intro n
      induction n with
      | zero => intro i h; simp at h
      | succ n ih =>
        intro i h
        cases i with
        | zero => simp [beBits]
        | succ i =>
          simp only [beBits, List.getElem_cons_succ]
          rw [ih]; congr 1; omega
    rw [key]

end Verif.Lemmas
