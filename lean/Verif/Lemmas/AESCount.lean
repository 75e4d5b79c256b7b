import Mathlib.Algebra.BigOperators.Group.List.Basic
import Verif.Lemmas.AESCert

/-! The number of AND gates of the circuit files. -/

namespace Verif.Lemmas.AESCount
open Verif.Model.AESCircuit Verif.Lemmas.Bristol Verif.Lemmas.AESCert

/-- Sum over `i, ..., i + 2^d - 1`. -/
def sumPow (f : Nat → Nat) : Nat → Nat → Nat
  | 0, i => f i
  | d + 1, i => force (sumPow f d i) fun a => force (Nat.add i (Nat.pow 2 d)) fun k => Nat.add a (sumPow f d k)

theorem sumPow_eq (f : Nat → Nat) (d i : Nat) : sumPow f d i = ((List.range' i (2 ^ d)).map f).sum := by
  induction d generalizing i with
  | zero => simp [sumPow]
  | succ d ih =>
    simp only [sumPow, force_eq, ih]
    show (_ : Nat) + _ = _
    rw [Nat.pow_succ, Nat.mul_two, ← List.range'_append_1, List.map_append, List.sum_append]
    rfl

/-- 1 if gate `i` is one of the first `n` and an AND gate. -/
def andAt (t : Tree) (n i : Nat) : Nat := cond (and (Nat.ble (Nat.succ i) n) (Nat.beq (fld (rawT t i) 0) 0)) 1 0

/-- Number of AND gates of a circuit. -/
def ands (c : Circuit) : Nat := ((List.range c.numGate).map fun i => if (c.gate i).op = 0 then 1 else 0).sum

theorem ands_eq {c : Circuit} {t : Tree} (ht : treeCheck c.chunks t = true) (hn : c.numGate ≤ 256 * c.chunks.length) {d : Nat}
    (hd : c.numGate ≤ 2 ^ d) : ands c = sumPow (andAt t c.numGate) d 0 := by
  rw [sumPow_eq, ands, ← List.range_eq_range']
  obtain ⟨k, hk⟩ := Nat.exists_eq_add_of_le hd
  rw [hk, List.range_add, List.map_append, List.sum_append, List.map_map]
  have z : ((List.range k).map (andAt t c.numGate ∘ fun x => c.numGate + x)).sum = 0 := by
    apply List.sum_eq_zero
    intro x hx
    obtain ⟨j, -, rfl⟩ := List.mem_map.1 hx
    have hb : Nat.ble (Nat.succ (c.numGate + j)) c.numGate = false := by
      rw [Bool.eq_false_iff]
      intro h
      have := Nat.le_of_ble_eq_true h
      omega
    simp only [Function.comp, andAt, hb, Bool.false_and, cond_false]
  rw [z, Nat.add_zero]
  congr 1
  apply List.map_congr_left
  intro i hi
  have hi := List.mem_range.1 hi
  have hb : Nat.ble (Nat.succ i) c.numGate = true := Nat.ble_eq_true_of_le hi
  rw [andAt, hb, tree_sound ht i (by omega), gate_raw, Bool.true_and]
  dsimp only
  by_cases h : fld (raw c.chunks i) 0 = 0
  · rw [if_pos h, h]; rfl
  · rw [if_neg h]
    have : Nat.beq (fld (raw c.chunks i) 0) 0 = false := by
      rw [Bool.eq_false_iff]
      exact fun e => h (Nat.eq_of_beq_eq_true e)
    rw [this]; rfl

theorem ks_sum : sumPow (andAt ksTree aesKs.numGate) 13 0 = 1280 := by decide +kernel
theorem enc_sum : sumPow (andAt encTree aesEncKs.numGate) 15 0 = 5120 := by decide +kernel

theorem ks_ands : ands aesKs = 1280 := (ands_eq ksTree_ok (by decide +kernel) (by decide)).trans ks_sum
theorem enc_ands : ands aesEncKs = 5120 := (ands_eq encTree_ok (by decide +kernel) (by decide)).trans enc_sum

end Verif.Lemmas.AESCount
