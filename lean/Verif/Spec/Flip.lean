import Verif.Spec.Circuit

/-! What a program opens when the bits of the openings to ALICE are changed on the way. -/

namespace Verif.Spec.Circuit

/-- Whether the wire an operation appends depends on an input, constants being carried through the gates: `w` are the values and `s` the
answers for the wires so far.  A wire that does not exist is a constant. -/
def newSecret (w s : List Bool) : Op → Option Bool
  | .pub _ => some false
  | .inA _ => some true
  | .inB _ => some true
  | .and i j => some ((get s i && get s j) || (get s i && get w j) || (get s j && get w i))
  | .xor i j => some (get s i || get s j)
  | .not i => some (get s i)
  | .reveal _ _ => none

def nextSecret (w s : List Bool) (op : Op) : List Bool := s ++ (newSecret w s op).toList

/-- The values opened when bit `i` of an opening to ALICE, made by operation number `k`, is changed if `F k i`: with `all` on every wire,
otherwise on the wires that depend on an input.  Openings to BOB and PUBLIC are as they are. -/
def openedFlip (all : Bool) (F : Nat → Nat → Bool) : Nat → List Bool → List Bool → List Op → List (Party × List Bool)
  | _, _, _, [] => []
  | k, w, s, .reveal .alice ws :: ops =>
    (.alice, ws.mapIdx fun i x => get w x ^^ (F k i && (all || get s x))) :: openedFlip all F (k + 1) w s ops
  | k, w, s, .reveal p ws :: ops => (p, ws.map (get w)) :: openedFlip all F (k + 1) w s ops
  | k, w, s, op :: ops => openedFlip all F (k + 1) (next w op) (nextSecret w s op) ops

/-- The values opened when ALICE is shown bit `V k i` as bit `i` of the opening made by operation number `k`. -/
def openedShown (V : Nat → Nat → Bool) : Nat → List Bool → List Op → List (Party × List Bool)
  | _, _, [] => []
  | k, w, .reveal .alice ws :: ops => (.alice, ws.mapIdx fun i _ => V k i) :: openedShown V (k + 1) w ops
  | k, w, .reveal p ws :: ops => (p, ws.map (get w)) :: openedShown V (k + 1) w ops
  | k, w, op :: ops => openedShown V (k + 1) (next w op) ops

end Verif.Spec.Circuit
