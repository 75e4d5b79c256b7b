import Verif.Model.Block
import Verif.Model.Integer
import Verif.Spec.Circuit

/-! Garbled-circuit backends: `backend/bn_utils.h:42-131`, `backend/opt_hg_*.h`, `backend/primus_gen.h`,
`backend/primus_eva.h`.

A program is a list of operations on numbered wires (every emp `Bit` operation ends in one of these); reading a wire
that does not exist gives the constant zero block.  The two parties run operation by operation over two FIFO channels.
The fixed-key permutation, `sigma`, the collision resistant hash and all pseudo-random streams are arbitrary functions.
The correlated-OT buffer is abstracted here to one correlation per input bit; `Verif.Model.Cot` models the buffer. -/

namespace Verif.Model.GC
open Verif.Model
open Verif.Spec.Circuit (Party Op)

/-- `getLSB(b)`. emp-tool; used in `backend/bn_utils.h:53-54,106-107`, `backend/primus_gen.h:73`. -/
def lsb (b : Block) : Bool := b.getLsbD 0

/-- `select_mask[s] & b`, `backend/bn_utils.h:78-84,126-128`. -/
def sel (s : Bool) (b : Block) : Block := if s then b else 0

/-- `zero_block`, `all_one_block`. emp-tool; used in `backend/opt_hg_gen.h:30`. -/
def zeroB : Block := 0
/-- `all_one_block` of emp-tool; used in `backend/opt_hg_gen.h:30`, `backend/bn_utils.h:95`. -/
def oneB : Block := BitVec.allOnes 128

/-- `isZero`, `isOne`, `backend/bn_utils.h:90-97`. -/
def isZero (b : Block) : Bool := b == zeroB
/-- `backend/bn_utils.h:94-97`. -/
def isOne (b : Block) : Bool := b == oneB

/-- `is_public`, `backend/opt_hg_gen.h:26`. -/
def isPublic (b : Block) : Bool := isZero b || isOne b

/-- `makeBlock(hi, lo)` with 64-bit arguments.
emp-tool; used in `backend/bn_utils.h:59-60,109-110`, `backend/opt_hg_gen.h:28`. -/
def makeBlock (hi lo : BitVec 64) : Block := hi ++ lo

/-- Things outside the modelled code: fixed-key permutation, linear map `sigma`, hash of a list of blocks, shared label
stream, correlated OT (`cotK i` for the garbler, choice `cotR i` of the evaluator), the public `fix_point`,
the public constants of the offline/online backend.
`prp` in `backend/opt_hg_gen.h:13`, `sigma` in `backend/bn_utils.h:65-68`, `Hash` in
`backend/primus_gen.h:10`, `shared_prg` in `backend/primus_party.h:14`, `send_cot`/`recv_cot` in
`backend/primus_gen.h:28`, `backend/primus_eva.h:27`, `fix_point` in `backend/opt_hg_gen.h:18-19`.
-/
structure Env where
  perm : Block → Block
  sigma : Block → Block
  hash : List Block → Nat
  prg : Nat → Block
  cotK : Nat → Block
  cotR : Nat → Bool
  fixPoint : Block
  const0 : Block
  const1 : Block

/-- The garbling hash, `backend/bn_utils.h:65-74,116-122`: `keys[i] = sigma(x) ^ tweak; H = AES(keys[i]) ^ keys[i]`. -/
def Env.h (E : Env) (x : Block) (tweak : Block) : Block := E.perm (E.sigma x ^^^ tweak) ^^^ (E.sigma x ^^^ tweak)

/-- `tweak1`, `tweak2`, `backend/bn_utils.h:59-60,109-110`. -/
def tweak1 (idx : Nat) : Block := makeBlock (BitVec.ofNat 64 (2 * idx)) 0
/-- `backend/bn_utils.h:60,110`. -/
def tweak2 (idx : Nat) : Block := makeBlock (BitVec.ofNat 64 (2 * idx + 1)) 0

/-- `garble_gate_garble_halfgates`, `backend/bn_utils.h:43-88`: output label of zero and the two table rows. -/
def garble (E : Env) (LA0 A1 LB0 B1 delta : Block) (idx : Nat) : Block × (Block × Block) :=
  let pa := lsb LA0
  let pb := lsb LB0
  let HLA0 := E.h LA0 (tweak1 idx)
  let HA1 := E.h A1 (tweak1 idx)
  let HLB0 := E.h LB0 (tweak2 idx)
  let HB1 := E.h B1 (tweak2 idx)
  let table0 := HLA0 ^^^ HA1
  let table0 := table0 ^^^ sel pb delta
  let W0 := HLA0
  let W0 := W0 ^^^ sel pa table0
  let tmp := HLB0 ^^^ HB1
  let table1 := tmp ^^^ LA0
  let W0 := W0 ^^^ HLB0
  let W0 := W0 ^^^ sel pb tmp
  (W0, table0, table1)

/-- `garble_gate_eval_halfgates`, `backend/bn_utils.h:100-131`. -/
def evalGate (E : Env) (A B : Block) (table : Block × Block) (idx : Nat) : Block :=
  let sa := lsb A
  let sb := lsb B
  let HA := E.h A (tweak1 idx)
  let HB := E.h B (tweak2 idx)
  let W := HA ^^^ HB
  let W := W ^^^ sel sa table.1
  let W := W ^^^ sel sb table.2
  W ^^^ sel sb A

/-- Messages on a channel.
`send_block`, `send_data` in `backend/opt_hg_gen.h:47`, `backend/primus_gen.h:75`,
`backend/primus_eva.h:57,75,81-84`. -/
inductive Msg where
  | blk (b : Block)
  | bit (b : Bool)
  | bits (b : List Bool)
  | dig (n : Nat)
deriving DecidableEq

/-- Garbler, `backend/opt_hg_gen.h:9-16`, `backend/primus_gen.h:8-12`. -/
structure Gen where
  delta : Block
  gid : Nat := 0
  wires : List Block := []
  prgPos : Nat := 0
  cotPos : Nat := 0

/-- Evaluator, `backend/opt_hg_eva.h:9-14`, `backend/primus_eva.h:8-11`. -/
structure Eva where
  gid : Nat := 0
  wires : List Block := []
  prgPos : Nat := 0
  cotPos : Nat := 0

/-- Both parties and the two channels.
`backend/opt_hg_gen.h:9-16`, `backend/primus_gen.h:7-10`, `backend/opt_hg_eva.h:9-14`,
`backend/primus_eva.h:7-11`; `io` in `backend/primus_party.h:11`. -/
structure Net where
  gen : Gen
  eva : Eva
  toEva : List Msg := []
  toGen : List Msg := []

/-- The label a `Bit` object holds and passes to `backend/opt_hg_gen.h:36-77`. -/
def Gen.get (g : Gen) (i : Nat) : Block := g.wires.getD i zeroB
/-- The label a `Bit` object holds and passes to `backend/opt_hg_eva.h:21-55`. -/
def Eva.get (e : Eva) (i : Nat) : Block := e.wires.getD i zeroB
/-- A `Bit` object made from the result of `backend/opt_hg_gen.h:36-77` or
`backend/primus_gen.h:32-63`. -/
def Gen.push (g : Gen) (b : Block) : Gen := { g with wires := g.wires ++ [b] }
/-- A `Bit` object made from the result of `backend/opt_hg_eva.h:21-55` or
`backend/primus_eva.h:31-61`. -/
def Eva.push (e : Eva) (b : Block) : Eva := { e with wires := e.wires ++ [b] }

/-- `recv_block(table, 2)`. `backend/opt_hg_eva.h:26`. -/
def recvTable : List Msg → Res ((Block × Block) × List Msg)
  | .blk a :: .blk b :: q => .ok ((a, b), q)
  | _ => .error (.error "channel: table expected")

/-- `recv_data(&tmp, 1)`, `backend/primus_gen.h:79`, `backend/primus_eva.h:72`. -/
def recvBit : List Msg → Res (Bool × List Msg)
  | .bit b :: q => .ok (b, q)
  | _ => .error (.error "channel: bit expected")

/-- `recv_data(b, length)`, `backend/primus_gen.h:57,85`. -/
def recvBits : List Msg → Res (List Bool × List Msg)
  | .bits b :: q => .ok (b, q)
  | _ => .error (.error "channel: bits expected")

/-- `recv_data(recv_hash, ...)`, `backend/primus_gen.h:89`. -/
def recvDig : List Msg → Res (Nat × List Msg)
  | .dig b :: q => .ok (b, q)
  | _ => .error (.error "channel: digest expected")

/-- `set_delta`, `backend/opt_hg_gen.h:27-29`: the least significant bit is forced to one. -/
def setDelta (d : Block) : Block := makeBlock 0 1 ||| d

/-! ### Optimised backend -/

/-- `public_label`, `backend/opt_hg_gen.h:30`, `backend/opt_hg_eva.h:20`. -/
def publicLabel (b : Bool) : Block := if b then oneB else zeroB

/-- `and_gate` of the garbler, `backend/opt_hg_gen.h:36-50`. -/
def genAnd (E : Env) (g : Gen) (a b : Block) : Block × Gen × List Msg :=
  if isZero a || isZero b then (zeroB, g, [])
  else if isOne a then (b, g, [])
  else if isOne b then (a, g, [])
  else
    let r := garble E a (a ^^^ g.delta) b (b ^^^ g.delta) g.delta g.gid
    (r.1, { g with gid := g.gid + 1 }, [.blk r.2.1, .blk r.2.2])

/-- `and_gate` of the evaluator, `backend/opt_hg_eva.h:21-30`. -/
def evaAnd (E : Env) (e : Eva) (a b : Block) (q : List Msg) : Res (Block × Eva × List Msg) :=
  if isZero a || isOne a || isZero b || isOne b then .ok (a &&& b, e, q)
  else do
    let (t, q) ← recvTable q
    .ok (evalGate E a b t e.gid, { e with gid := e.gid + 1 }, q)

/-- `not_gate`, `backend/opt_hg_gen.h:70-77`. -/
def genNot (delta a : Block) : Block := if isZero a then oneB else if isOne a then zeroB else a ^^^ delta

/-- `not_gate`, `backend/opt_hg_eva.h:48-55`. -/
def evaNot (a : Block) : Block := if isZero a then oneB else if isOne a then zeroB else a

/-- `xor_gate`, `backend/opt_hg_gen.h:51-69`. -/
def genXor (E : Env) (delta a b : Block) : Block :=
  if isOne a then genNot delta b
  else if isOne b then genNot delta a
  else if isZero a then b
  else if isZero b then a
  else
    let res := a ^^^ b
    if isZero res then E.fixPoint
    else if res == delta then E.fixPoint ^^^ delta
    else res

/-- `xor_gate`, `backend/opt_hg_eva.h:31-47`. -/
def evaXor (E : Env) (a b : Block) : Block :=
  if isOne a then evaNot b
  else if isOne b then evaNot a
  else if isZero a then b
  else if isZero b then a
  else
    let res := a ^^^ b
    if isZero res then E.fixPoint else res

/-- Bits sent by the garbler at the start of `reveal`, `backend/primus_gen.h:67-76` (party BOB or PUBLIC). -/
def genRevealSend (p : Party) (ls : List Block) : List Msg :=
  if p = .alice then [] else (ls.filter fun l => !isPublic l).map fun l => .bit (lsb l)

/-- The loop of `reveal` of the evaluator, `backend/primus_eva.h:64-79`: returns `b`, the remaining input and the bits
sent. -/
def evaRevealLoop (p : Party) : List Block → List Msg → Res (List Bool × List Msg × List Msg)
  | [], q => .ok ([], q, [])
  | l :: ls, q =>
    if isOne l then do
      let (bs, q, s) ← evaRevealLoop p ls q
      .ok (true :: bs, q, s)
    else if isZero l then do
      let (bs, q, s) ← evaRevealLoop p ls q
      .ok (false :: bs, q, s)
    else if p = .alice then do
      let (bs, q, s) ← evaRevealLoop p ls q
      .ok (false :: bs, q, .bit (lsb l) :: s)
    else do
      let (t, q) ← recvBit q
      let (bs, q, s) ← evaRevealLoop p ls q
      .ok ((t != lsb l) :: bs, q, s)

/-- The loop of `reveal` of the garbler, `backend/primus_gen.h:67-83`, receiving part. -/
def genRevealLoop (p : Party) : List Block → List Msg → Res (List Bool × List Msg)
  | [], q => .ok ([], q)
  | l :: ls, q =>
    if isOne l then do
      let (bs, q) ← genRevealLoop p ls q
      .ok (true :: bs, q)
    else if isZero l then do
      let (bs, q) ← genRevealLoop p ls q
      .ok (false :: bs, q)
    else if p = .alice then do
      let (t, q) ← recvBit q
      let (bs, q) ← genRevealLoop p ls q
      .ok ((t != lsb l) :: bs, q)
    else do
      let (bs, q) ← genRevealLoop p ls q
      .ok (false :: bs, q)

/-- The blocks hashed by the garbler in a public opening, `backend/primus_gen.h:90-93`. -/
def genOpenBlocks (delta : Block) (ls : List Block) (bs : List Bool) : List Block :=
  List.zipWith (fun l b => if isPublic l then l else if b then l ^^^ delta else l) ls bs

/-- The public part of `reveal` of the garbler, `backend/primus_gen.h:84-97`; `io->recv_data(b, length)` reads exactly
`length` bytes. -/
def genPublicCheck (E : Env) (delta : Block) (ls : List Block) (q : List Msg) : Res (List Bool × List Msg) := do
  let (b, q) ← recvBits q
  if b.length ≠ ls.length then .error (.error "channel: length")
  let (d, q) ← recvDig q
  if E.hash (genOpenBlocks delta ls b) ≠ d then .error (.error "Evaluator cheated in revealing msgs!")
  .ok (b, q)

/-- One operation by both parties: sending part of the garbler, the evaluator, receiving part of the garbler.
`backend/primus_gen.h:32-63` and `backend/primus_eva.h:31-61` for the inputs. -/
def Net.step (E : Env) (n : Net) : Op → Res (Option (Party × List Bool × List Bool) × Net)
  | .pub b => .ok (none, { n with gen := n.gen.push (publicLabel b), eva := n.eva.push (publicLabel b) })
  | .inA b =>
    let l := E.prg n.gen.prgPos
    let l := if b then l ^^^ n.gen.delta else l
    .ok (none, { n with gen := { n.gen with prgPos := n.gen.prgPos + 1 }.push l,
                        eva := { n.eva with prgPos := n.eva.prgPos + 1 }.push (E.prg n.eva.prgPos) })
  | .inB b => do
    let r := E.cotR n.eva.cotPos
    let m := E.cotK n.eva.cotPos ^^^ sel r n.gen.delta
    let toGen := n.toGen ++ [.bit (r != b)]
    let (d, toGen) ← recvBit toGen
    let l := E.cotK n.gen.cotPos
    let l := if d then l ^^^ n.gen.delta else l
    .ok (none, { n with gen := { n.gen with cotPos := n.gen.cotPos + 1 }.push l,
                        eva := { n.eva with cotPos := n.eva.cotPos + 1 }.push m, toGen := toGen })
  | .and i j => do
    let (lg, g, s) := genAnd E n.gen (n.gen.get i) (n.gen.get j)
    let (le, e, q) ← evaAnd E n.eva (n.eva.get i) (n.eva.get j) (n.toEva ++ s)
    .ok (none, { n with gen := g.push lg, eva := e.push le, toEva := q })
  | .xor i j => .ok (none, { n with gen := n.gen.push (genXor E n.gen.delta (n.gen.get i) (n.gen.get j)),
                                    eva := n.eva.push (evaXor E (n.eva.get i) (n.eva.get j)) })
  | .not i => .ok (none, { n with gen := n.gen.push (genNot n.gen.delta (n.gen.get i)),
                                  eva := n.eva.push (evaNot (n.eva.get i)) })
  | .reveal p ws => do
    let gl := ws.map n.gen.get
    let el := ws.map n.eva.get
    let (eb, toEva, s) ← evaRevealLoop p el (n.toEva ++ genRevealSend p gl)
    let toGen := n.toGen ++ s ++ (if p = .pub then [.bits eb, .dig (E.hash el)] else [])
    let (gb, toGen) ← genRevealLoop p gl toGen
    let (gb, toGen) ← (if p = .pub then genPublicCheck E n.gen.delta gl toGen else .ok (gb, toGen))
    .ok (some (p, gb, eb), { n with toEva := toEva, toGen := toGen })

/-- A program; the result lists, for every reveal, the outputs of garbler and evaluator.
The members of `backend/opt_hg_gen.h:36-77`, `backend/primus_gen.h:32-98`,
`backend/opt_hg_eva.h:21-55`, `backend/primus_eva.h:31-86`, one call after the other. -/
def Net.run (E : Env) (n : Net) : List Op → Res (List (Party × List Bool × List Bool) × Net)
  | [] => .ok ([], n)
  | op :: ops => do
    let (o, n) ← n.step E op
    let (os, n) ← n.run E ops
    .ok (o.toList ++ os, n)

end Verif.Model.GC
