import Verif.Model.Integer
import Verif.Model.AESCircuitData

/-!
Model of the AES circuits: the two Bristol circuit files, their evaluation, `computeKS` and `computeAES_KS`.

`emp::BristolFormat` is outside the repository; its evaluation is modelled by its conventions: the wires `0 .. n1 - 1` and
`n1 .. n1 + n2 - 1` take the inputs, the gates are evaluated in file order, the last `n3` wires are the outputs.  The content of
the wires before evaluation is arbitrary (`junk`).  A secret bit is its plain value.
-/

namespace Verif.Model.AESCircuit
open Integer

/-- A gate line of a circuit file: operation (0 `AND`, 1 `XOR`, 2 `INV`), input wires, output wire.
`cipher/circuit_files/aes128_ks.txt`, `cipher/circuit_files/aes128_with_ks.txt`, loaded in
`cipher/utils.cpp:15-25`. -/
structure Gate where
  op : Nat
  a : Nat
  b : Nat
  o : Nat

/-- A circuit file: header (gates, wires; sizes of the two inputs and of the output) and gates.
`cipher/circuit_files/aes128_ks.txt:1-3`, `cipher/circuit_files/aes128_with_ks.txt:1-3`, loaded in
`cipher/utils.cpp:15-25`. -/
structure Circuit where
  numGate : Nat
  numWire : Nat
  n1 : Nat
  n2 : Nat
  n3 : Nat
  chunks : List Nat

/-- Gate `i` (see `AESCircuitData`).
Lines `4 + i` of the files loaded in `cipher/utils.cpp:15-25`. -/
def Circuit.gate (c : Circuit) (i : Nat) : Gate :=
  let r := c.chunks.getD (i / 256) 0 >>> (64 * (i % 256))
  ⟨r % 65536, (r >>> 16) % 65536, (r >>> 32) % 65536, (r >>> 48) % 65536⟩

/-- The values on the wires.
Member `wires` of emp-tool's `BristolFormat`, called in `cipher/utils.h:242-254`. -/
abbrev Wires := Nat → Bool

/-- The value a gate computes.
emp-tool's `BristolFormat::compute`, called in `cipher/utils.h:242-254`. -/
def Gate.out (g : Gate) (w : Wires) : Bool :=
  if g.op = 0 then w g.a && w g.b else if g.op = 1 then w g.a != w g.b else !w g.a

/-- One step of `BristolFormat::compute`. Called in `cipher/utils.h:242-254`. -/
def Gate.eval (w : Wires) (g : Gate) : Wires := fun x => if x = g.o then g.out w else w x

/-- The wires after the first `n` gates. Called in `cipher/utils.h:242-254`. -/
def Circuit.run (c : Circuit) (w : Wires) (n : Nat) : Wires := (List.range n).foldl (fun w i => (c.gate i).eval w) w

/-- The wires before the first gate. Called in `cipher/utils.h:242-254`. -/
def Circuit.start (c : Circuit) (junk : Wires) (in1 in2 : List Bool) : Wires := fun x =>
  if x < c.n1 then in1.getD x false else if x < c.n1 + c.n2 then in2.getD (x - c.n1) false else junk x

/-- `BristolFormat::compute(out, in1, in2)`: the inputs are read through raw pointers.
Called in `cipher/utils.h:242-254`. -/
def Circuit.compute (c : Circuit) (junk : Wires) (in1 in2 : List Bool) : Res (List Bool) :=
  if in1.length < c.n1 ∨ in2.length < c.n2 then .error (.ub "BristolFormat: input too short")
  else
    let w := c.run (c.start junk in1 in2) c.numGate
    .ok ((List.range c.n3).map fun i => w (c.numWire - c.n3 + i))

/-- `aes_ks`, `cipher/utils.cpp:19-27`, header `cipher/circuit_files/aes128_ks.txt:1-2`. -/
def aesKs : Circuit := ⟨7233, 7361, 128, 0, 1408, ksChunks⟩

/-- `aes_enc_ks`, `cipher/utils.cpp:19-27`, header `cipher/circuit_files/aes128_with_ks.txt:1-2`. -/
def aesEncKs : Circuit := ⟨29059, 30595, 1408, 128, 128, encChunks⟩

/-- `computeKS`, `cipher/utils.h:242-246`. -/
def computeKS (junk : Wires) (key : Integer) : Res Integer := aesKs.compute junk key []

/-- `computeAES_KS`, `cipher/utils.h:249-254`. -/
def computeAESKS (junk : Wires) (key msg : Integer) : Res Integer := do
  let o ← aesEncKs.compute junk key msg
  return o.reverse

end Verif.Model.AESCircuit
