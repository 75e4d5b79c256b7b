import Verif.Spec.Circuit

/-! Programs in which the AND gates compute other functions of their two operands. -/

namespace Verif.Spec.Circuit

/-- What a gate adds to the product of its operands: multiples of the operands and a constant. -/
structure Twist where
  left : Bool
  right : Bool
  flip : Bool

/-- The function of a gate. -/
def Twist.apply (t : Twist) (a b : Bool) : Bool := (((a && b) ^^ (t.left && a)) ^^ (t.right && b)) ^^ t.flip

/-- Number of gates of an operation. -/
def gates : Op → Nat
  | .and _ _ => 1
  | _ => 0

/-- The wire appended by an operation, gate number `k` computing the function `f k`. -/
def newWireAs (f : Nat → Bool → Bool → Bool) (k : Nat) (w : List Bool) : Op → Option Bool
  | .and i j => some (f k (get w i) (get w j))
  | op => newWire w op

/-- The values opened by the `reveal` operations if gate number `k` computes the function `f k`. -/
def openedAs (f : Nat → Bool → Bool → Bool) : Nat → List Bool → List Op → List (Party × List Bool)
  | _, _, [] => []
  | k, w, .reveal p ws :: ops => (p, ws.map (get w)) :: openedAs f k w ops
  | k, w, op :: ops => openedAs f (k + gates op) (w ++ (newWireAs f k w op).toList) ops

end Verif.Spec.Circuit
