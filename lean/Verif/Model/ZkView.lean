import Verif.Model.ZkVerifier

/-!
The proof phase on wires: the items of `Verif.Model.ZkVerifier` with the wires they are about.

In the zero-knowledge backend (emp-zk, external) the wires of inputs and of AND gates have blocks drawn independently; XOR gates and negations are computed locally on
the blocks (the constant `true` has a public block of ALICE, and BOB's key for it).  A wire of the circuit is therefore the XOR of some of the former and of a constant.
-/

namespace Verif.Model.ZkVerifier
open Integer AEADProof SHA ZkCheck Session

/-- A wire: the XOR of the wires `ins` (inputs and outputs of AND gates) and the constant `c`.
The `Bit` objects of an `Integer` passed to `backend/check_zero.h:20,37` and
`protocol/aead_izk.h:13,31`. -/
structure Wire (n : Nat) where
  ins : List (Fin n)
  c : Bool

/-- The bit of a wire, for the bits `x`.
The value of a `Bit` passed to `backend/check_zero.h:20`. -/
def Wire.bit {n : Nat} (x : Fin n → Bool) (w : Wire n) : Bool := w.ins.foldl (fun a i => a != x i) w.c

/-- The block of a wire computed with XOR: ALICE's from its blocks, BOB's from its keys; `one` is the block of the constant `true`.
`input[i].bit`, `backend/check_zero.h:24,29`. -/
def Wire.block {n : Nat} (one : Block) (m : Fin n → Block) (w : Wire n) : Block := w.ins.foldl (fun a i => a ^^^ m i) (if w.c then one else 0)

/-- An item with its wires: the circuit and the public data.
`protocol/aead_izk.h:13,31`, `backend/check_zero.h:37`, `protocol/post_record.h:186`. -/
inductive WItem (n : Nat) where
  /-- `itmac_hom_add_check` with a block -/
  | block (res pre : List (Wire n)) (gc : Block)
  /-- `itmac_hom_add_check` with bytes -/
  | bytes (res pre : List (Wire n)) (gc : List Byte)
  /-- `check_zero` with bytes -/
  | data (res : List (Wire n)) (d : List Byte)
  /-- `check_zero` with words -/
  | words (res : List (Wire n)) (w : List (BitVec 32))
  /-- the opening, with the bits opened -/
  | opening (res : List (Wire n)) (y : Integer)

/-- The item, with the values of the wires.
`protocol/aead_izk.h:13,31`, `backend/check_zero.h:37`, `protocol/post_record.h:186`. -/
def WItem.item {n : Nat} (x : Fin n → Bool) : WItem n → Item
  | .block r p g => .check (.block (r.map (Wire.bit x)) (p.map (Wire.bit x)) g)
  | .bytes r p g => .check (.bytes (r.map (Wire.bit x)) (p.map (Wire.bit x)) g)
  | .data r d => .check (.data (r.map (Wire.bit x)) d)
  | .words r w => .words (r.map (Wire.bit x)) w
  | .opening r y => .opening (r.map (Wire.bit x)) y

/-- ALICE's blocks for the item. `input[i].bit` of ALICE, `backend/check_zero.h:24`. -/
def WItem.macs {n : Nat} (one : Block) (m : Fin n → Block) : WItem n → Macs
  | .block r p _ => ⟨r.map (Wire.block one m), p.map (Wire.block one m)⟩
  | .bytes r p _ => ⟨r.map (Wire.block one m), p.map (Wire.block one m)⟩
  | .data r _ => ⟨r.map (Wire.block one m), []⟩
  | .words r _ => ⟨r.map (Wire.block one m), []⟩
  | .opening r _ => ⟨r.map (Wire.block one m), []⟩

/-- What BOB puts for an item, on its keys alone: `protocol/aead_izk.h:13-47`, `backend/check_zero.h:37-41,54-55`, and the opening of `protocol/post_record.h:186`.
`pk` are BOB's keys of the constants. -/
def WItem.put {n : Nat} (delta : Block) (pk : Bool → Block) (k : Fin n → Block) (t : List Block) : WItem n → Res (List Block)
  | .block r p g => homBlock delta t (r.map (Wire.block (pk true) k)) (p.map (Wire.block (pk true) k)) g
  | .bytes r p g => homBytes delta t (r.map (Wire.block (pk true) k)) (p.map (Wire.block (pk true) k)) g g.length
  | .data r d => zeroData pk (d.length * 8) t (r.map (Wire.block (pk true) k)) (ofBytes d)
  | .words r w => zeroData pk (32 * w.length) t (r.map (Wire.block (pk true) k)) (wordsInt w)
  | .opening r y => .ok (t ++ addBits delta (r.map (Wire.block (pk true) k)) y)

/-- All items in order. The calls of `backend/check_zero.h:28-29`, in order. -/
def bobPuts {n : Nat} (delta : Block) (pk : Bool → Block) (k : Fin n → Block) : List Block → List (WItem n) → Res (List Block)
  | t, [] => .ok t
  | t, i :: l => do
    let t ← i.put delta pk k t
    bobPuts delta pk k t l

/-- What BOB sees when ALICE, with bits `x` and blocks `m`, follows the protocol: BOB's keys and the digest received (the bits opened are part of the items).
Not in the code: BOB's side of `backend/check_zero.h:14-15,27-30` and the digest compared by emp-
zk in `finalize_zk_bool` (`protocol/prove_aes.h:42`). -/
def view {δ : Type} {n : Nat} (D : List Block → δ) (delta : Block) (pub : Bool → Block) (t : List Block) (l : List (WItem n)) (x : Fin n → Bool) (m : Fin n → Block) :
    (Fin n → Block) × δ :=
  (fun i => wireKey delta (m i) (x i), D (t ++ l.flatMap fun i => putMacs pub (i.item x) (i.macs (pub true) m)))

end Verif.Model.ZkVerifier
