import Verif.Spec.OddGates

/-! Programs in which constants are known to both parties, the gates on two secret wires compute given functions and BOB is told given wires wrongly. -/

namespace Verif.Spec.Circuit

/-- A wire: known to both parties as a constant or not, and its value. -/
structure Wire where
  known : Bool
  val : Bool
deriving DecidableEq

/-- A wire that does not exist is the constant false. -/
def wire (w : List Wire) (i : Nat) : Wire := w.getD i ⟨true, false⟩

/-- Gates of an operation that are on two secret wires. -/
def garbled (w : List Wire) : Op → Nat
  | .and i j => if (wire w i).known || (wire w j).known then 0 else 1
  | _ => 0

/-- The wire appended by an operation; gate number `k` on secret wires computes `f k`. -/
def newWireBy (f : Nat → Bool → Bool → Bool) (k : Nat) (w : List Wire) : Op → Option Wire
  | .pub b => some ⟨true, b⟩
  | .inA b => some ⟨false, b⟩
  | .inB b => some ⟨false, b⟩
  | .and i j => some (if (wire w i).known then (if (wire w i).val then wire w j else ⟨true, false⟩)
      else if (wire w j).known then (if (wire w j).val then wire w i else ⟨true, false⟩)
      else ⟨false, f k (wire w i).val (wire w j).val⟩)
  | .xor i j => some ⟨(wire w i).known && (wire w j).known, (wire w i).val ^^ (wire w j).val⟩
  | .not i => some ⟨(wire w i).known, !(wire w i).val⟩
  | .reveal _ _ => none

/-- What a party is told about wire `i` if the secret wires `s` are told wrongly. -/
def told (s : Nat → Bool) (w : List Wire) (i : Nat) : Bool := (wire w i).val ^^ (!(wire w i).known && s i)

/-- The values of the `reveal` operations, for ALICE and for BOB. -/
def openedBy (f : Nat → Bool → Bool → Bool) (s : Nat → Bool) : Nat → List Wire → List Op → List (Party × List Bool × List Bool)
  | _, _, [] => []
  | k, w, .reveal p ws :: ops => (p, ws.map fun i => (wire w i).val, ws.map (told s w)) :: openedBy f s k w ops
  | k, w, op :: ops => openedBy f s (k + garbled w op) (w ++ (newWireBy f k w op).toList) ops

end Verif.Spec.Circuit
