import Verif.Spec.Circuit

/-! What can be said about the wires and messages of a program without its private inputs. -/

namespace Verif.Spec.Circuit

/-- What is known of a wire: the constant, or nothing.  A wire that does not exist is false. -/
def known (k : List (Option Bool)) (i : Nat) : Option Bool := k.getD i (some false)

/-- Known of the conjunction. -/
def knownAnd : Option Bool → Option Bool → Option Bool
  | some false, _ => some false
  | _, some false => some false
  | some true, y => y
  | x, some true => x
  | none, none => none

/-- Known of the sum. -/
def knownXor : Option Bool → Option Bool → Option Bool
  | some a, some b => some (a != b)
  | _, _ => none

/-- What is known of the wire appended by an operation. -/
def newKnown (k : List (Option Bool)) : Op → Option (Option Bool)
  | .pub b => some (some b)
  | .inA _ => some none
  | .inB _ => some none
  | .and i j => some (knownAnd (known k i) (known k j))
  | .xor i j => some (knownXor (known k i) (known k j))
  | .not i => some ((known k i).map (!·))
  | .reveal _ _ => none

def nextKnown (k : List (Option Bool)) (op : Op) : List (Option Bool) := k ++ (newKnown k op).toList

/-- What an operation makes the parties exchange. -/
inductive Traffic where
  | feedA
  | feedB
  | table
  /-- An opening of so many wires, so many of which are not known. -/
  | opening (p : Party) (wires unknown : Nat)
deriving DecidableEq

def trafficOf (k : List (Option Bool)) : Op → List Traffic
  | .inA _ => [.feedA]
  | .inB _ => [.feedB]
  | .and i j => if known k i = none ∧ known k j = none then [.table] else []
  | .reveal p ws => [.opening p ws.length (ws.filter fun i => known k i = none).length]
  | .pub _ | .xor _ _ | .not _ => []

/-- What a program makes the parties exchange. -/
def traffic : List (Option Bool) → List Op → List Traffic
  | _, [] => []
  | k, op :: ops => trafficOf k op ++ traffic (nextKnown k op) ops

/-- The operation without its private input. -/
def blank : Op → Op
  | .inA _ => .inA false
  | .inB _ => .inB false
  | op => op

/-- A message without what it says: a block, a bit, an array of so many bits, a digest. -/
inductive Form where
  | block
  | bit
  | bits (n : Nat)
  | digest
deriving DecidableEq

/-- What an operation of the online phase sends to the garbler. -/
def formGarbler : Op → List Form
  | .reveal .alice ws => List.replicate ws.length .bit
  | .reveal .pub ws => [.bits ws.length, .digest]
  | _ => []

/-- What an operation of the online phase brings to the evaluator; the block of `inB` comes out of the oblivious transfer. -/
def formEvaluator : Op → List Form
  | .inA _ => [.block]
  | .inB _ => [.block]
  | .reveal .bob ws => List.replicate ws.length .bit
  | _ => []

/-- The operation without its input and without its constant. -/
def bare : Op → Op
  | .inA _ => .inA false
  | .inB _ => .inB false
  | .pub _ => .pub false
  | op => op

/-- Tables and opened labels of the offline phase. -/
def offlineSize : Op → Nat × Nat
  | .and _ _ => (2, 0)
  | .reveal .pub ws => (0, ws.length)
  | _ => (0, 0)

end Verif.Spec.Circuit
