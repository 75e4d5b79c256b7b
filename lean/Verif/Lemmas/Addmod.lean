import Verif.Lemmas.Integer
import Verif.Lemmas.Encoding
import Verif.Model.Handshake

/-! `addmod` and the big-number buffers. -/

namespace Verif.Lemmas
open Verif.Model Verif.Model.Integer
open Verif.Spec Verif.Spec.Encoding

theorem val_snoc_false (x : Integer) : val (x ++ [false]) = val x := by
  rw [val_append]; simp [val]

theorem getLastD_val (x : Integer) (h : x ≠ []) :
    x.getLastD false = decide (2 ^ (x.length - 1) ≤ val x) := by
  have e : x = x.dropLast ++ [x.getLast h] := (List.dropLast_concat_getLast h).symm
  have hl : x.dropLast.length = x.length - 1 := List.length_dropLast
  have hv : val x = val x.dropLast + 2 ^ (x.length - 1) * (x.getLast h).toNat := by
    conv_lhs => rw [e]
    rw [val_append, hl]; simp [val]
  have hlt := val_lt x.dropLast
  rw [hl] at hlt
  rw [List.getLastD_eq_getLast?, List.getLast?_eq_some_getLast h, Option.getD_some]
  cases hb : x.getLast h <;> rw [hb] at hv <;> simp at hv <;> simp <;> omega

theorem val_dropLast (x : Integer) : val x.dropLast = val x % 2 ^ (x.length - 1) := by
  by_cases h : x = []
  · subst h; rfl
  have e : x = x.dropLast ++ [x.getLast h] := (List.dropLast_concat_getLast h).symm
  have hl : x.dropLast.length = x.length - 1 := List.length_dropLast
  have hlt := val_lt x.dropLast
  rw [hl] at hlt
  conv_rhs => rw [e]
  rw [val_append, hl, List.length_append, hl]
  have : x.length - 1 + [x.getLast h].length - 1 = x.length - 1 := by simp
  rw [this, Nat.add_mul_mod_self_left, Nat.mod_eq_of_lt hlt]

/-- The circuit in general: one conditional subtraction. -/
theorem addmodQ_spec (n : Nat) (a b Q : Integer) (ha : a.length = n) (hb : b.length = n) (hQ : Q.length = n) :
    (addmodQ a b Q).1.length = n
      ∧ val (addmodQ a b Q).1 = (if val Q ≤ val a + val b then val a + val b - val Q else val a + val b) % 2 ^ n := by
  have va := val_lt a
  have vb := val_lt b
  have vq := val_lt Q
  rw [ha] at va
  rw [hb] at vb
  rw [hQ] at vq
  have p1 : 2 ^ (n + 1) = 2 * 2 ^ n := by rw [Nat.pow_succ]; omega
  have p2 : 2 ^ (n + 2) = 4 * 2 ^ n := by rw [Nat.pow_succ, Nat.pow_succ]; omega
  generalize hc : add (a ++ [false]) (b ++ [false]) ++ [false] = c
  have hcl : c.length = n + 2 := by rw [← hc]; simp [ha]
  have hcv : val c = val a + val b := by
    rw [← hc, val_snoc_false, Integer.add, val_ofNat, val_snoc_false, val_snoc_false, List.length_append, ha]
    have : n + [false].length = n + 1 := rfl
    rw [this, Nat.mod_eq_of_lt (by omega)]
  have hQv : val (Q ++ [false] ++ [false]) = val Q := by rw [val_snoc_false, val_snoc_false]
  have hsv : val (sub c (Q ++ [false] ++ [false])) = (val a + val b + 4 * 2 ^ n - val Q) % (4 * 2 ^ n) := by
    rw [Integer.sub, val_ofNat, hcl, hcv, hQv, p2]
  have hsl : (sub c (Q ++ [false] ++ [false])).length = n + 2 := by simp [hcl]
  have hgeq : geq c (Q ++ [false] ++ [false]) = decide (val Q ≤ val a + val b) := by
    unfold geq
    rw [getLastD_val _ (by intro h; rw [h] at hsl; simp at hsl), hsl, hsv]
    have : n + 2 - 1 = n + 1 := rfl
    rw [this, p1]
    by_cases hq : val Q ≤ val a + val b
    · have : (val a + val b + 4 * 2 ^ n - val Q) % (4 * 2 ^ n) = val a + val b - val Q := by
        rw [show val a + val b + 4 * 2 ^ n - val Q = (val a + val b - val Q) + 4 * 2 ^ n by omega,
          Nat.add_mod_right, Nat.mod_eq_of_lt (by omega)]
      rw [this]
      simp [hq]; omega
    · rw [Nat.mod_eq_of_lt (by omega)]
      simp [hq]; omega
  have hres : (addmodQ a b Q).1 = (select c (decide (val Q ≤ val a + val b)) (sub c (Q ++ [false] ++ [false]))).dropLast.dropLast := by
    unfold addmodQ
    simp only [hc, hgeq]
  have key : ∀ x : Integer, x.length = n + 2 → x.dropLast.dropLast.length = n ∧ val x.dropLast.dropLast = val x % 2 ^ n := by
    intro x hx
    refine ⟨by simp [hx], ?_⟩
    rw [val_dropLast, val_dropLast, List.length_dropLast, hx]
    show val x % 2 ^ (n + 1) % 2 ^ n = _
    rw [p1, Nat.mod_mul_left_mod]
  rw [hres]
  by_cases hq : val Q ≤ val a + val b
  · simp only [hq, decide_true, select, if_true]
    obtain ⟨k1, k2⟩ := key _ hsl
    refine ⟨k1, ?_⟩
    rw [k2, hsv, Nat.mod_mul_left_mod, show val a + val b + 4 * 2 ^ n - val Q = (val a + val b - val Q) + 4 * 2 ^ n by omega,
      Nat.add_mul_mod_self_right]
  · simp only [hq, decide_false, select, if_false]
    obtain ⟨k1, k2⟩ := key _ hcl
    exact ⟨k1, by simp [k2, hcv]⟩

theorem val_ofBytes_append (a b : List Byte) : val (ofBytes (a ++ b)) = val (ofBytes a) + 2 ^ (8 * a.length) * val (ofBytes b) := by
  have : ofBytes (a ++ b) = ofBytes a ++ ofBytes b := by simp [ofBytes]
  rw [this, val_append, length_ofBytes]

theorem val_bn2bin (n : Nat) : val (ofBytes (bn2bin n).reverse) = n := by
  induction n using Nat.strongRecOn with
  | _ n ih =>
    rw [bn2bin]
    split
    · next h => subst h; rfl
    · next h =>
      rw [List.reverse_append, val_ofBytes_append, ih (n / 256) (by omega)]
      have : val (ofBytes [BitVec.ofNat 8 n].reverse) = n % 256 := by
        simp [ofBytes, val_ofNat]
      rw [this]
      simp
      omega

theorem val_ofBytes_replicate (n : Nat) : val (ofBytes (List.replicate n (0 : Byte))) = 0 := by
  induction n with
  | zero => rfl
  | succ n ih =>
    rw [List.replicate_succ, show (0 : Byte) :: List.replicate n 0 = [0] ++ List.replicate n 0 from rfl,
      val_ofBytes_append, ih]
    decide

theorem bnBuffer_spec (len n : Nat) (h : bnNumBytes n ≤ len) :
    ∃ buf, bnBuffer len n = .ok buf ∧ (ofBytes buf).length = 8 * len ∧ val (ofBytes buf) = n := by
  refine ⟨_, if_pos h, ?_, ?_⟩
  · rw [length_ofBytes, List.length_reverse, List.length_append, List.length_replicate]
    have : (bn2bin n).length = bnNumBytes n := rfl
    omega
  · rw [List.reverse_append, val_ofBytes_append, val_bn2bin, List.reverse_replicate, val_ofBytes_replicate]
    omega

theorem bnNumBytes_mono {m n : Nat} (h : m ≤ n) : bnNumBytes m ≤ bnNumBytes n := by
  unfold bnNumBytes
  induction n using Nat.strongRecOn generalizing m with
  | _ n ih =>
    by_cases h0 : m = 0
    · subst h0; rw [bn2bin]; simp
    · rw [bn2bin, bn2bin.eq_1 n]
      have : n ≠ 0 := by omega
      simp only [h0, this, dite_false, List.length_append]
      have := ih (n / 256) (by omega) (Nat.div_le_div_right h)
      simp; omega

theorem lt_pow_bnNumBytes (n : Nat) : n < 2 ^ (8 * bnNumBytes n) := by
  have h1 := val_lt (ofBytes (bn2bin n).reverse)
  rw [val_bn2bin, length_ofBytes, List.length_reverse] at h1
  exact h1

end Verif.Lemmas
