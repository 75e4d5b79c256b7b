import Verif.Spec.OddGates

/-! What gets on the labels of the evaluator if blocks are added to the rows of tables. -/

namespace Verif.Spec.Circuit

/-- What is on wire `i`. -/
def onWire (D : List (BitVec 128)) (i : Nat) : BitVec 128 := D.getD i 0

/-- One operation further: number of gates so far, what is on the wires.  `P k` are the blocks added to the rows of gate `k`, `c` are the lowest bits of the labels.  A gate adds a row
if the bit of the operand is set; XOR and NOT pass on what is there; inputs have nothing on them. -/
def drift (P : Nat → BitVec 128 × BitVec 128) (c : Nat → Bool) (st : Nat × List (BitVec 128)) : Op → Nat × List (BitVec 128)
  | .and i j => (st.1 + 1, st.2 ++ [(if c i then (P st.1).1 else 0) ^^^ (if c j then (P st.1).2 else 0)])
  | .xor i j => (st.1, st.2 ++ [onWire st.2 i ^^^ onWire st.2 j])
  | .not i => (st.1, st.2 ++ [onWire st.2 i])
  | .reveal _ _ => st
  | _ => (st.1, st.2 ++ [0])

/-- Nothing gets to the operands of a gate, and the operands of gates with blocks added to their rows exist. -/
def Calm (P : Nat → BitVec 128 × BitVec 128) (c : Nat → Bool) : Nat × List (BitVec 128) → List Op → Prop
  | _, [] => True
  | st, op :: ops => (∀ i j, op = .and i j → onWire st.2 i = 0 ∧ onWire st.2 j = 0 ∧ (P st.1 ≠ (0, 0) → i < st.2.length ∧ j < st.2.length))
    ∧ Calm P c (drift P c st op) ops

/-- The operation does not compute with the wires from `lo` to `hi - 1`. -/
def Away (lo hi : Nat) : Op → Prop
  | .and i j => (i < lo ∨ hi ≤ i) ∧ (j < lo ∨ hi ≤ j)
  | .xor i j => (i < lo ∨ hi ≤ i) ∧ (j < lo ∨ hi ≤ j)
  | .not i => i < lo ∨ hi ≤ i
  | _ => True

end Verif.Spec.Circuit
