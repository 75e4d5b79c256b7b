import Verif.Model.GateOnline
import Verif.Model.AEAD

/-!
The records of a garbled connection: the calls of `AEAD` (`protocol/aead.h`) on the shares that the two parties read from their labels.

`Verif.Model.AEAD` takes ALICE's label bits as a parameter; here they are the least significant bits of the labels of the
wires that the gate-level call (`Verif.Model.GateOnline`) hands out.  ALICE garbles (`backend/backend.h:19-31`, `51-63`), so her bits are those of the generator.
The label bits of the wires of `Z` that are erased unread (`protocol/aead.h:202`, `346`) are put to zero.
-/

namespace Verif.Model.Records
open Integer Gate

/-- ALICE's bits of `H`, `protocol/aead.h:55-57`. -/
def keyMask (bits : Wire → Bool) (h : SInt) : Nat → Bool := fun i => (h.map bits).getD i false

/-- ALICE's bits of `Z`, from the erased wires (bottom) to those of `Z0` (top), `protocol/aead.h:188-190`, `201-202`, `224`. -/
def recMask (bits : Wire → Bool) (n : Nat) (z0 z : SInt) : Nat → Bool := fun i =>
  (List.replicate (AEAD.padBits n) false ++ z.map bits ++ z0.map bits).getD i false

/-- What the parties supply for a call besides the lengths of the gate-level call: buffers, random masks and the correlations of the
oblivious linear evaluation. `protocol/aead.h:47,169-179,309-319`. -/
inductive In where
  | none
  | setup (r : Block) (raw0 raw1 : Nat → Block)
  | seal (msgA msgB aad : List Byte) (raw0 raw1 : Nat → Block)
  | open (ctxtA ctxtB tagA tagB aad : List Byte) (raw0 raw1 : Nat → Block) (rndA rndB : List Byte)

/-- What the two parties obtain from a call. `protocol/aead.h:169,309`. -/
inductive Got where
  | none
  | sealed (a b : AEAD.Sealed)
  | opened (a b : AEAD.Opened)

/-- The objects of the two directions.
The `AEAD` objects passed in `protocol/record.h:13,29`, `protocol/handshake.h:328,342`. -/
structure Objs where
  c : Option AEAD.State := .none
  s : Option AEAD.State := .none

/-- `aead_c`, `aead_s` in `protocol/record.h:13,29`. -/
def Objs.get (o : Objs) (cl : Bool) : Res AEAD.State :=
  match if cl then o.c else o.s with
  | some a => .ok a
  | .none => .error (.ub "null AEAD object")

/-- `aead_c`, `aead_s` in `protocol/record.h:13,29`. -/
def Objs.set (o : Objs) (cl : Bool) (a : AEAD.State) : Objs := if cl then { o with c := some a } else { o with s := some a }

/-- The fixed surroundings: per direction the function of the expanded key, the fixed part of the nonce and the sender of the oblivious
transfer; the hash of the commitments; ALICE's label bits. Members of `protocol/aead.h:14-47`. -/
structure Ctx where
  cipher : Bool → Block → Block
  fixedIv : Bool → Integer
  aliceSends : Bool → Bool
  hash : List Byte → List Byte
  bits : Wire → Bool

/-- One call: the constructor (`protocol/aead.h:47-85`), `encrypt` (`protocol/aead.h:169-306`) or `decrypt` (`protocol/aead.h:309-492`) after its
gate-level part has handed out the wires `o`. -/
def step (x : Ctx) (st : Objs) (op : Call) (o : Out) (i : In) : Res (Got × Objs) :=
  match op, i with
  | .newAead _ cl, .setup r raw0 raw1 => do
    let a ← AEAD.construct (x.cipher cl) (x.fixedIv cl) (x.aliceSends cl) (keyMask x.bits o.h) r raw0 raw1
    .ok (.none, st.set cl a)
  | .encrypt _ cl iv n sec, .seal mA mB aad raw0 raw1 => do
    let a ← st.get cl
    let (a, gA, gB) ← AEAD.encrypt (x.aliceSends cl) a mA mB aad iv sec (recMask x.bits n o.z0 o.z) raw0 raw1
    .ok (.sealed gA gB, st.set cl a)
  | .decrypt _ cl iv n sec, .open cA cB tA tB aad raw0 raw1 rA rB => do
    let a ← st.get cl
    let (a, gA, gB) ← AEAD.decrypt x.hash (x.aliceSends cl) a cA cB tA tB aad iv sec (recMask x.bits n o.z0 o.z) raw0 raw1 rA rB
    .ok (.opened gA gB, st.set cl a)
  | _, _ => .ok (.none, st)

/-- The calls of a connection, with the wires handed out by each.
Not in the code: a program that calls the members of `protocol/record.h:8`,
`protocol/handshake.h:328-370`. -/
def run (x : Ctx) (st : Objs) : List ((Call × In) × Out) → Res (List Got × Objs)
  | [] => .ok ([], st)
  | ((op, i), o) :: l => do
    let (g, st) ← step x st op o i
    let (gs, st) ← run x st l
    .ok (g :: gs, st)

end Verif.Model.Records
