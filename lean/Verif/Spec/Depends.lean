import Verif.Spec.Circuit

/-! Which wires of a program depend on an input of a party. -/

namespace Verif.Spec.Circuit

/-- Whether the wires depend on the inputs, an under-approximation: an xor does if one side does, an and only if both do. -/
def dependsNext (f : List Bool) : Op → List Bool
  | .pub _ => f ++ [false]
  | .inA _ => f ++ [true]
  | .inB _ => f ++ [true]
  | .and i j => f ++ [get f i && get f j]
  | .xor i j => f ++ [get f i || get f j]
  | .not i => f ++ [get f i]
  | .reveal _ _ => f

def depends (ops : List Op) : List Bool := ops.foldl dependsNext []

end Verif.Spec.Circuit
