import Verif.Lemmas.AESCert

/-! Every gate of the circuit files reads inputs or results of earlier gates, and every output is written. -/

namespace Verif.Lemmas.Bristol
open Verif.Model.AESCircuit Verif.Lemmas.AESCert

/-- `f` holds on `i, ..., i + 2^d - 1`. -/
def allPow (f : Nat → Bool) : Nat → Nat → Bool
  | 0, i => f i
  | d + 1, i => and (allPow f d i) (force (Nat.add i (Nat.pow 2 d)) fun k => allPow f d k)

theorem allPow_sound {f : Nat → Bool} {d i : Nat} (h : allPow f d i = true) : ∀ k, i ≤ k → k < i + 2 ^ d → f k = true := by
  induction d generalizing i with
  | zero => intro k h1 h2; rw [show k = i by omega]; exact h
  | succ d ih =>
    simp only [allPow, Bool.and_eq_true, force_eq] at h
    intro k h1 h2
    rw [Nat.pow_succ] at h2
    by_cases e : k < i + 2 ^ d
    · exact ih h.1 k h1 e
    · exact ih h.2 k (Nat.le_of_not_lt e) (by show k < (i + 2 ^ d) + 2 ^ d; omega)

/-- The wire `x` is an input or the output of a gate before `i`. -/
def written (t p : Tree) (nin i x : Nat) : Bool :=
  or (Nat.ble (Nat.succ x) nin)
    (force (fieldT p x) fun k => and (Nat.ble (Nat.succ k) i) (Nat.beq (fld (rawT t k) 48) x))

def wiresCheck (t p : Tree) (n nin : Nat) (i : Nat) : Bool :=
  or (Nat.ble n i) (force (rawT t i) fun r => and (written t p nin i (fld r 16)) (written t p nin i (fld r 32)))

/-- Written before gate `i`. -/
def Written (c : Circuit) (i x : Nat) : Prop := x < c.n1 + c.n2 ∨ ∃ k < i, (c.gate k).o = x

theorem written_sound {c : Circuit} {t p : Tree} (ht : treeCheck c.chunks t = true) (hn : c.numGate ≤ 256 * c.chunks.length)
    {i x : Nat} (hi : i ≤ c.numGate) (h : written t p (c.n1 + c.n2) i x = true) : Written c i x := by
  simp only [written, force_eq, Bool.or_eq_true, Bool.and_eq_true] at h
  rcases h with h | ⟨h1, h2⟩
  · exact Or.inl (Nat.le_of_ble_eq_true h)
  · have hk : fieldT p x < i := Nat.le_of_ble_eq_true h1
    refine Or.inr ⟨fieldT p x, hk, ?_⟩
    rw [tree_sound ht _ (by omega)] at h2
    rw [gate_raw]
    exact Nat.eq_of_beq_eq_true h2

theorem wires_sound {c : Circuit} {t p : Tree} (ht : treeCheck c.chunks t = true) (hn : c.numGate ≤ 256 * c.chunks.length)
    {d : Nat} (hd : c.numGate ≤ 2 ^ d) (h : allPow (wiresCheck t p c.numGate (c.n1 + c.n2)) d 0 = true) :
    ∀ i < c.numGate, Written c i (c.gate i).a ∧ Written c i (c.gate i).b := by
  intro i hi
  have hk := allPow_sound h i (by omega) (by omega)
  simp only [wiresCheck, force_eq, Bool.or_eq_true, Bool.and_eq_true] at hk
  rcases hk with hk | ⟨h1, h2⟩
  · have := Nat.le_of_ble_eq_true hk; omega
  · rw [tree_sound ht i (by omega)] at h1 h2
    rw [gate_raw]
    exact ⟨written_sound ht hn (by omega) h1, written_sound ht hn (by omega) h2⟩

theorem outs_sound {c : Circuit} {t p : Tree} (ht : treeCheck c.chunks t = true) (hn : c.numGate ≤ 256 * c.chunks.length)
    (h : allLt c.n3 (fun i => written t p (c.n1 + c.n2) c.numGate (c.numWire - c.n3 + i)) = true) :
    ∀ i < c.n3, Written c c.numGate (c.numWire - c.n3 + i) := by
  intro i hi
  exact written_sound ht hn (Nat.le_refl _) (allLt_sound h i hi)

theorem ksWires_ok : allPow (wiresCheck ksTree ksProd aesKs.numGate (aesKs.n1 + aesKs.n2)) 13 0 = true := by decide +kernel
theorem encWires_ok : allPow (wiresCheck encTree encProd aesEncKs.numGate (aesEncKs.n1 + aesEncKs.n2)) 15 0 = true := by
  decide +kernel
theorem ksOuts_ok : allLt aesKs.n3 (fun i => written ksTree ksProd (aesKs.n1 + aesKs.n2) aesKs.numGate
    (aesKs.numWire - aesKs.n3 + i)) = true := by decide +kernel
theorem encOuts_ok : allLt aesEncKs.n3 (fun i => written encTree encProd (aesEncKs.n1 + aesEncKs.n2) aesEncKs.numGate
    (aesEncKs.numWire - aesEncKs.n3 + i)) = true := by decide +kernel

/-- The circuit reads and returns only wires that were written. -/
def WellWired (c : Circuit) : Prop :=
  (∀ i < c.numGate, Written c i (c.gate i).a ∧ Written c i (c.gate i).b) ∧ ∀ i < c.n3, Written c c.numGate (c.numWire - c.n3 + i)

theorem ks_wired : WellWired aesKs :=
  ⟨wires_sound ksTree_ok (by decide +kernel) (by decide) ksWires_ok, outs_sound ksTree_ok (by decide +kernel) ksOuts_ok⟩

theorem enc_wired : WellWired aesEncKs :=
  ⟨wires_sound encTree_ok (by decide +kernel) (by decide) encWires_ok, outs_sound encTree_ok (by decide +kernel) encOuts_ok⟩

end Verif.Lemmas.Bristol
