/-! Boolean programs and their plain meaning. -/

namespace Verif.Spec.Circuit

inductive Party where
  | alice
  | bob
  | pub
deriving DecidableEq

/-- Operations on numbered wires; each of the first six appends one wire. -/
inductive Op where
  | pub (b : Bool)
  | inA (b : Bool)
  | inB (b : Bool)
  | and (i j : Nat)
  | xor (i j : Nat)
  | not (i : Nat)
  | reveal (p : Party) (ws : List Nat)
deriving DecidableEq

/-- Value of a wire; a wire that does not exist is false. -/
def get (w : List Bool) (i : Nat) : Bool := w.getD i false

/-- The wire appended by an operation, if any. -/
def newWire (w : List Bool) : Op → Option Bool
  | .pub b => some b
  | .inA b => some b
  | .inB b => some b
  | .and i j => some (get w i && get w j)
  | .xor i j => some (get w i != get w j)
  | .not i => some (!get w i)
  | .reveal _ _ => none

def next (w : List Bool) (op : Op) : List Bool := w ++ (newWire w op).toList

/-- The values opened by the `reveal` operations, in order. -/
def opened : List Bool → List Op → List (Party × List Bool)
  | _, [] => []
  | w, .reveal p ws :: ops => (p, ws.map (get w)) :: opened w ops
  | w, op :: ops => opened (next w op) ops

end Verif.Spec.Circuit
