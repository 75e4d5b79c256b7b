import Verif.Spec.OddGates

/-! How the output of one gate gets through XOR and NOT. -/

namespace Verif.Spec.Circuit

/-- Which wires contain the marked wires an odd number of times, one operation further; the output of a gate does not count. -/
def mark (m : List Bool) : Op → List Bool
  | .xor i j => m ++ [get m i ^^ get m j]
  | .not i => m ++ [get m i]
  | .reveal _ _ => m
  | _ => m ++ [false]

/-- No gate of the program has a marked wire as an operand. -/
def Quiet : List Bool → List Op → Prop
  | _, [] => True
  | m, op :: ops => (∀ i j, op = .and i j → get m i = false ∧ get m j = false) ∧ Quiet (mark m op) ops

/-- XOR and NOT. -/
def IsLinear : Op → Prop
  | .xor _ _ => True
  | .not _ => True
  | _ => False

end Verif.Spec.Circuit
