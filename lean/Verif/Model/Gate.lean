import Verif.Model.Integer
import Verif.Model.AESCircuit
import Verif.Spec.Circuit

/-!
The secret computations of the repository as sequences of backend operations.

In the value-level models (`Verif.Model.SHA256` etc.) a secret bit is its plain value.  Here it is a wire, and a function of the
repository is the sequence of operations it hands to the active backend: inputs (`Integer(n, v, ALICE)` is one `feed` of `n` bits),
gates (`and_gate`, `xor_gate`, `not_gate`), and openings (`reveal`).  Public constants (`Integer(n, v, PUBLIC)`) are stateless wires:
no operation is issued (`public_label`, `backend/opt_hg_gen.h:30`, `backend/offline_hg_gen.h:30`, `backend/online_hg_gen.h:27`).

The values obtained from `reveal` come from an arbitrary oracle.  The circuits of the arithmetic operators belong to emp-tool: they are a
parameter (`Lib`); `empLib` is an instance with the usual ripple-carry circuits.
-/

namespace Verif.Model.Gate
open Verif.Model
open Verif.Spec.Circuit (Party)

/-- A secret bit: a public constant or the `n`-th wire created in the session.
`Bit` and `Integer` of emp-tool as used by `cipher/sha256.h:422-467`; public constants are
`public_label`, `backend/opt_hg_gen.h:30`, `backend/opt_hg_eva.h:20`. -/
inductive Wire where
  | pub (b : Bool)
  | idx (n : Nat)
deriving DecidableEq

/-- `emp::Integer`, least significant bit first.
As used in `cipher/utils.h:29-31,124-146` and everywhere else. -/
abbrev SInt := List Wire

/-- An operation handed to the backend.
The virtual members overridden in `backend/opt_hg_gen.h:30-77`, `backend/primus_gen.h:32,66` and
the other backends. -/
inductive Ev where
  | feed (p : Party) (bits : List Bool)
  | and (a b : Wire)
  | xor (a b : Wire)
  | not (a : Wire)
  | reveal (p : Party) (ws : List Wire)
deriving DecidableEq

/-- A session: the operations so far, newest first, and the number of wires created.
Not in the code: what `CircuitExecution::circ_exec` and `ProtocolExecution::prot_exec`, set in
`backend/backend.h:21-30,53-62,68-77`, are called with. -/
structure Sess where
  evs : List Ev := []
  n : Nat := 0

/-- What the openings return.
The array `b` of `reveal`, `backend/primus_gen.h:66-98`, `backend/primus_eva.h:63-86`. -/
abbrev Oracle := Sess → Party → List Wire → List Bool

/-- A computation in a session.
Not in the code: code that calls the backend set in `backend/backend.h:67-78`. -/
def M (α : Type) : Type := Oracle → Sess → Res (α × Sess)

instance : Monad M where
  pure a := fun _ s => .ok (a, s)
  bind m f := fun O s =>
    match m O s with
    | .ok (a, s') => f a O s'
    | .error e => .error e

/-- An error or undefined behaviour.
`error(...)`, as in `backend/primus_gen.h:96`, and assertions. -/
def fail {α : Type} (e : Fault) : M α := fun _ _ => .error e

/-- A computation without backend operations.
Not in the code: plain computations between the calls, such as `protocol/aead.h:181-183`. -/
def lift {α : Type} (r : Res α) : M α := fun _ s =>
  match r with
  | .ok a => .ok (a, s)
  | .error e => .error e

/-- `feed`: the inputs of a party, e.g. `backend/primus_gen.h`. -/
def feed (p : Party) (bits : List Bool) : M SInt := fun _ s =>
  .ok ((List.range' s.n bits.length).map .idx, ⟨.feed p bits :: s.evs, s.n + bits.length⟩)

/-- An operation that creates one wire.
`backend/opt_hg_gen.h:36,51,70`, `backend/opt_hg_eva.h:21,31,48`, and the same members of the
other backends. -/
def gate (e : Ev) : M Wire := fun _ s => .ok (.idx s.n, ⟨e :: s.evs, s.n + 1⟩)

/-- `and_gate`, `backend/opt_hg_gen.h:36`, `backend/opt_hg_eva.h:21`. -/
def andG (a b : Wire) : M Wire := gate (.and a b)
/-- `xor_gate`, `backend/opt_hg_gen.h:51`, `backend/opt_hg_eva.h:31`. -/
def xorG (a b : Wire) : M Wire := gate (.xor a b)
/-- `not_gate`, `backend/opt_hg_gen.h:70`, `backend/opt_hg_eva.h:48`. -/
def notG (a : Wire) : M Wire := gate (.not a)

/-- `reveal`. `backend/primus_gen.h:66-98`, `backend/primus_eva.h:63-86`. -/
def reveal (p : Party) (ws : SInt) : M (List Bool) := fun O s => .ok (O s p ws, ⟨.reveal p ws :: s.evs, s.n⟩)

/-- `Integer(n, v, PUBLIC)`. emp-tool; as in `cipher/sha256.h:116-188`. -/
def pubInt (n v : Nat) : SInt := (Integer.ofNat n v).map .pub

/-- `Integer(8 * len, bytes, PUBLIC)`. emp-tool; as in `protocol/aead.h:126-134`. -/
def pubBytes (b : List Byte) : SInt := (Integer.ofBytes b).map .pub

/-- Gate by gate over two integers.
The loops of emp-tool's operators; used in `cipher/sha256.h:422-467`. -/
def zipGate (g : Wire → Wire → M Wire) : SInt → SInt → M SInt
  | a :: as, b :: bs => do
    let c ← g a b
    let r ← zipGate g as bs
    pure (c :: r)
  | _, _ => pure []

/-- `operator^`, `operator&` (emp-tool).
Used in `cipher/sha256.h:422-467`, `cipher/hmac_sha256.h:55-56`. -/
def xorI : SInt → SInt → M SInt := zipGate xorG
/-- Used in `cipher/sha256.h:422-467`. -/
def andI : SInt → SInt → M SInt := zipGate andG

/-- `operator<<`, `operator>>` (emp-tool). Used in `cipher/utils.h:29-31`. -/
def shl (x : SInt) (k : Nat) : SInt :=
  if x.length < k then List.replicate x.length (.pub false) else List.replicate k (.pub false) ++ x.take (x.length - k)
/-- Used in `cipher/utils.h:29-31`. -/
def shr (x : SInt) (k : Nat) : SInt :=
  if x.length < k then List.replicate x.length (.pub false) else x.drop k ++ List.replicate k (.pub false)

/-- `rrot(const Integer&, int)`, `cipher/utils.h:29-31`. -/
def rrot (x : SInt) (sht : Nat) : M SInt := xorI (shr x sht) (shl x (x.length - sht))

/-- `concat`, `cipher/utils.h:124-127`. -/
def concat (res : SInt) (ins : List SInt) : SInt := ins.foldl (fun res x => x ++ res) res

/-- `reverse_concat`, `cipher/utils.h:143-146`. -/
def reverseConcat (res : SInt) (ins : List SInt) : SInt := ins.foldl (fun res x => res ++ x) res

/-- `extract_integer`, `cipher/utils.h:332-335`. -/
def extractInteger (src : SInt) (offset size : Nat) : Res SInt :=
  if offset + size ≤ src.length then .ok ((src.drop (src.length - offset - size)).take size)
  else .error (.ub "extract_integer: iterator out of range")

/-- The arithmetic operators of emp-tool: `+`, `-`, `geq`, `select`.
Used in `cipher/sha256.h:422-467` and `protocol/addmod.h:10-25`. -/
structure Lib where
  add : SInt → SInt → M SInt
  sub : SInt → SInt → M SInt
  geq : SInt → SInt → M Wire
  select : SInt → Wire → SInt → M SInt

/-- Ripple-carry addition without the last carry (emp-tool `add_full`); missing bits of `b` are zero.
Used through `operator+` in `cipher/sha256.h:422-467`, `protocol/addmod.h:10-25`,
`protocol/aead.h:94-105`. -/
def addRipple : SInt → SInt → Wire → M SInt
  | [], _, _ => pure []
  | [a], bs, c => do
    let t ← xorG c (bs.headD (.pub false))
    let d ← xorG t a
    pure [d]
  | a :: a' :: as, bs, c => do
    let axc ← xorG a c
    let bxc ← xorG (bs.headD (.pub false)) c
    let d ← xorG a bxc
    let t ← andG axc bxc
    let c ← xorG c t
    let r ← addRipple (a' :: as) bs.tail c
    pure (d :: r)

/-- Ripple-borrow subtraction without the last borrow (emp-tool `sub_full`).
Used through `operator-` in `protocol/addmod.h:10-25`. -/
def subRipple : SInt → SInt → Wire → M SInt
  | [], _, _ => pure []
  | [a], bs, c => do
    let t ← xorG c (bs.headD (.pub false))
    let d ← xorG t a
    pure [d]
  | a :: a' :: as, bs, c => do
    let bxa ← xorG a (bs.headD (.pub false))
    let bxc ← xorG c (bs.headD (.pub false))
    let d ← xorG bxa c
    let t ← andG bxa bxc
    let c ← xorG c t
    let r ← subRipple (a' :: as) bs.tail c
    pure (d :: r)

/-- Bitwise selection (emp-tool `Bit::select`).
Used through `select` in `protocol/addmod.h:10-25`. -/
def selBits (sel : Wire) : SInt → SInt → M SInt
  | a :: as, b :: bs => do
    let t ← xorG a b
    let t ← andG t sel
    let d ← xorG a t
    let r ← selBits sel as bs
    pure (d :: r)
  | _, _ => pure []

/-- Usual circuits for the operators.
Used in `cipher/sha256.h:422-467`, `protocol/addmod.h:10-25`. -/
def empLib : Lib where
  add a b := addRipple a b (.pub false)
  sub a b := subRipple a b (.pub false)
  geq a b := do
    let t ← subRipple a b (.pub false)
    notG (t.getLastD (.pub false))
  select a sel b := selBits sel a b

/-! ### Circuit files -/



/-- The output of a gate of a circuit file: type 0 is AND, 1 is XOR, 2 is INV.
Called from `cipher/utils.h:242-254`. -/
def gateOut (g : AESCircuit.Gate) (a b : Wire) : M Wire :=
  if g.op = 0 then andG a b else if g.op = 1 then xorG a b else notG a

/-- One gate of `BristolFormat::compute` (see `Verif.Model.AESCircuit`).
Called from `cipher/utils.h:242-254`. -/
def bristolGate (g : AESCircuit.Gate) (w : Nat → Wire) : M (Nat → Wire) := do
  let o ← gateOut g (w g.a) (w g.b)
  pure fun x => if x = g.o then o else w x

/-- `BristolFormat::compute`; `junk` is the content of the wires before the call.
Called from `cipher/utils.h:242-254`. -/
def bristol (c : AESCircuit.Circuit) (junk : Nat → Wire) (in1 in2 : SInt) : M SInt :=
  if in1.length < c.n1 ∨ in2.length < c.n2 then fail (.ub "BristolFormat: input too short")
  else do
    let w ← (List.range c.numGate).foldlM (fun w i => bristolGate (c.gate i) w) (fun x =>
      if x < c.n1 then in1.getD x (.pub false) else if x < c.n1 + c.n2 then in2.getD (x - c.n1) (.pub false) else junk x)
    pure ((List.range c.n3).map fun i => w (c.numWire - c.n3 + i))

/-- `computeKS`, `cipher/utils.h:242-246`. -/
def computeKS (junk : Nat → Wire) (key : SInt) : M SInt := bristol AESCircuit.aesKs junk key []

/-- `computeAES_KS`, `cipher/utils.h:249-254`. -/
def computeAESKS (junk : Nat → Wire) (key msg : SInt) : M SInt := do
  let o ← bristol AESCircuit.aesEncKs junk key msg
  pure o.reverse

/-! ### Meaning -/

/-- A session as a program on numbered wires: wires 0 and 1 are the public constants.
Not in the code: the labels `backend/opt_hg_gen.h:30` of the constants come first. -/
def wireNo : Wire → Nat
  | .pub b => b.toNat
  | .idx n => n + 2

open Verif.Spec.Circuit (Op) in
/-- The operations as `backend/opt_hg_gen.h:36-77`, `backend/primus_gen.h:32-98` see them, one by
one. -/
def evOps : Ev → List Op
  | .feed .alice bits => bits.map .inA
  | .feed .bob bits => bits.map .inB
  | .feed .pub bits => bits.map .pub
  | .and a b => [.and (wireNo a) (wireNo b)]
  | .xor a b => [.xor (wireNo a) (wireNo b)]
  | .not a => [.not (wireNo a)]
  | .reveal p ws => [.reveal p (ws.map wireNo)]

open Verif.Spec.Circuit (Op) in
/-- The operations of a session in order, as `backend/opt_hg_gen.h:36-77`,
`backend/primus_gen.h:32-98` see them. -/
def Sess.program (s : Sess) : List Op := [.pub false, .pub true] ++ s.evs.reverse.flatMap evOps

end Verif.Model.Gate
