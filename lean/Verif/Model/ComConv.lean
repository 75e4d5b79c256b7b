import Verif.Model.Network
import Verif.Model.OLE
import Verif.Model.BlockConv
import Mathlib.Algebra.Group.Defs

/-!
Model of `protocol/com_conv.h`.

`G` is the group of the curve, `g` its generator, `h` the second base.  `hash` (`emp::Hash`), `ccrh`
(`emp::CCRH`) and `chi` (the generator of `gen_chi`: digest and index to coefficient) are arbitrary functions; `enc` and
`dec` are `EC_POINT_point2oct` and `EC_POINT_oct2point`.  Numbers sent with `send_bn` arrive unchanged (C37).  Memory
management of the `BIGNUM`s is in `Verif/Model/Ownership.lean`.  A point that `oct2point` refuses (line 345, result ignored) leaves the caller's
`com[i]` as it was; it is taken to be fresh, that is the point at infinity `0`.
-/

namespace Verif.Model.ComConv
open Integer SHA Network

/-- External functions and public values.
`Hash`, `PRG`, `Com` and the group of `protocol/com_conv.h:81-117`. -/
structure Env (G : Type) where
  /-- the order of the group -/
  q : Nat
  g : G
  h : G
  ccrh : Block → Block
  hash : List Byte → List Byte
  chi : List Byte → Nat → Int
  enc : G → List Byte
  dec : List Byte → Option G

variable {G : Type} [AddCommGroup G]

/-- `H`, `backend/bn_utils.h:9-17`. -/
def Env.H (E : Env G) (b : Block) : Int := OLE.hashBn E.ccrh E.q b

/-- `BN_num_bits(q)`: the size of `exp`, `protocol/com_conv.h:108-115`. -/
def numBits (q : Nat) : Nat := if q = 0 then 0 else q.log2 + 1

/-- Conversion of the `uint64_t` argument to the `int` parameter of `BN_set_bit`, `protocol/com_conv.h:291`. -/
def toInt32 (n : Nat) : Int :=
  let m : Nat := n % 2 ^ 32
  if m < 2 ^ 31 then (m : Int) else (m : Int) - 2 ^ 32

/-- The value of `bs_int`, `protocol/com_conv.h:291-294`: `BN_set_bit` with a negative position fails and leaves zero. -/
def bsInt (bs : Nat) : Int := (if toInt32 bs < 0 then 0 else 2 ^ (toInt32 bs).toNat) - 1

/-- `std::strncmp(a, b, DIGEST_SIZE) == 0` on two digests, `protocol/com_conv.h:223`, `251`: the comparison ends at the
first difference or after a common zero byte. -/
def strncmpEq : List Byte → List Byte → Bool
  | a :: as, b :: bs => if a ≠ b then false else if a = 0 then true else strncmpEq as bs
  | _, _ => true

/-- `compute_hash`, `protocol/com_conv.h:121-133`. -/
def Env.computeHash (E : Env G) (seed bDelta : Block) (aDelta : Nat) : List Byte :=
  E.hash (blockBytes seed ++ blockBytes bDelta ++ u32 (bn2bin aDelta).length ++ bn2bin aDelta)

/-- `convert`, `protocol/com_conv.h:194-206`: the arithmetic keys and the messages. -/
def Env.convert (E : Env G) (bDelta : Block) (aDelta : Int) (keys : List Block) : List Int × List Int :=
  (keys.map E.H, keys.map fun k => (E.H (k ^^^ bDelta) + E.H k + aDelta) % E.q)

/-- The bytes put into `hash` by `send_bn`/`recv_bn` of the messages, `protocol/com_conv.h:160`, `187`, `246-247`. -/
def msgBytes (msgs : List Int) : List Byte := msgs.flatMap fun m => bn2bin m.toNat

/-- `convert_recv`, `protocol/com_conv.h:165-171`. -/
def Env.convertRecv (E : Env G) (macs : List Block) (msgs : List Int) : List Int :=
  List.zipWith (fun m msg => if m.getLsbD 0 then ((msg - E.H m) + E.q) % E.q else E.H m) macs msgs

/-- `bool open(vector<block>&)`, `protocol/com_conv.h:213-253`: `com`, `msgCom` are the stored digests, `seed`, `bDelta`,
`aDelta` the received opening. -/
def Env.openRecv (E : Env G) (com msgCom : List Byte) (seed bDelta : Block) (aDelta : Nat) (macs : List Block) : Bool :=
  let keys := macs.map fun m => if m.getLsbD 0 then m ^^^ bDelta else m
  strncmpEq (E.computeHash seed bDelta aDelta) com
    && strncmpEq (E.hash (msgBytes (E.convert bDelta aDelta keys).2)) msgCom

/-- The elements of chunk `i`: `j < batch_size` and `i * batch_size + j < size`, `protocol/com_conv.h:331-332`, `487-488`. -/
def chunks {α : Type} (bs : Nat) (l : List α) : List (List α) :=
  (List.range ((l.length + bs - 1) / bs)).map fun i => (l.drop (i * bs)).take bs

/-- The inner loop over one chunk, `protocol/com_conv.h:332-335`, `492-493`: `exp[j] = 2^j mod q`, `exp` has `BN_num_bits(q)`
elements. -/
def Env.chunkSum (E : Env G) (l : List Int) : Res Int :=
  if l.length > numBits E.q then .error (.ub "exp[j] out of range")
  else .ok (l.zipIdx.foldl (fun acc p => (acc + (OLE.exp E.q p.2 * p.1) % E.q) % E.q) 0)

/-- The number committed to for one chunk, `protocol/com_conv.h:489-490`. -/
def Env.chunkMsg (E : Env G) (l : List Bool) : Res Int :=
  if l.length > numBits E.q then .error (.ub "exp[j] out of range")
  else .ok (l.zipIdx.foldl (fun acc p => if p.1 then (acc + OLE.exp E.q p.2) % E.q else acc) 0)

/-- `linear_comb_rand`, `protocol/com_conv.h:59-71`. -/
def Env.linearCombRand (E : Env G) (vals coef : List Int) : Int :=
  (vals.zip coef).foldl (fun acc p => (acc + (p.1 * p.2) % E.q) % E.q) 0

/-- The loops `y = y + chi[i] * batch[i]`, `protocol/com_conv.h:371-374`, `540-543`. -/
def Env.linearKey (E : Env G) (start : Int) (chi batch : List Int) : Int :=
  (chi.zip batch).foldl (fun acc p => (acc + (p.1 * p.2) % E.q) % E.q) start

/-- `EC_POINT_mul(group, r, n, h, m, ctx)`: `n * g + m * h`, `protocol/com_conv.h:33`, `39`. -/
def Env.mul (E : Env G) (n m : Int) : G := n • E.g + m • E.h

/-- `open_check`, `protocol/com_conv.h:36-43`. -/
def Env.openCheck [DecidableEq G] (E : Env G) (com : G) (rnd msg : Int) : Bool := com == E.mul msg rnd

/-- `linear_comb_com`, `protocol/com_conv.h:45-57`. -/
def linearCombCom (coms : List G) (coef : List Int) : G := (coms.zip coef).foldl (fun acc p => acc + p.2 • p.1) 0

/-- The random values of a run. `protocol/com_conv.h:135-149,282-300`. -/
structure Rand where
  aDelta : Nat
  seed : Block
  r : Nat
  rnds : List Int
  rndR : Int
  ySeed : Block
  /-- the correlated OT of the OLE -/
  otDelta : Block
  otKeys : Nat → Block

/-- What the two parties hold afterwards. `protocol/com_conv.h:282-587`. -/
structure Out (G : Type) where
  sendOk : Bool
  recvOk : Bool
  /-- `com` of the sender and of the receiver -/
  comS : List G
  comR : List G

/-- The batch size check, `protocol/com_conv.h:286-298`, `438-450`, and the division at lines 320 and 469. -/
def batchCheck (q bs : Nat) : Res Unit :=
  if bsInt bs ≥ q then .error (.error "batch size is too large!")
  else if bs = 0 then .error (.ub "division by zero")
  else .ok ()

/-- `mask_key` and `mask_mac`, `protocol/com_conv.h:255-270`: key and MAC of `r`.  The holder of the keys is the OLE
sender if its OT object has a `Delta`. -/
def Env.mask (E : Env G) (keySends : Bool) (R : Rand) : Res (Int × Int) := do
  if keySends then
    let (oK, oM, _) ← OLE.compute E.ccrh E.q (numBits E.q) R.otDelta R.otKeys [(R.aDelta : Int)] [(R.r : Int)]
    .ok (E.q - oK.getD 0 0, oM.getD 0 0)
  else
    let (oM, oK, _) ← OLE.compute E.ccrh E.q (numBits E.q) R.otDelta R.otKeys [(R.r : Int)] [(R.aDelta : Int)]
    .ok (E.q - oK.getD 0 0, oM.getD 0 0)

/-- `compute_com_send` and `compute_com_recv` run together, `protocol/com_conv.h:282-431` and `433-587`; `rnds` has
`chunk_len` elements, as the caller's vectors `com` must have. -/
def Env.run [DecidableEq G] (E : Env G) (keySends : Bool) (bDelta : Block) (keys macs : List Block) (bs : Nat) (R : Rand) :
    Res (Out G) := do
  batchCheck E.q bs
  -- commitDelta, lines 135-149
  let com := E.computeHash R.seed bDelta R.aDelta
  let (rKEY, rMAC) ← E.mask keySends R
  -- conversion
  let (aKEYs, msgs) := E.convert bDelta R.aDelta keys
  let msgCom := E.hash (msgBytes msgs)
  let aMACs := E.convertRecv macs msgs
  let batchK ← (chunks bs aKEYs).mapM E.chunkSum
  let batchM ← (chunks bs aMACs).mapM E.chunkSum
  let msg ← (chunks bs (macs.map fun m => m.getLsbD 0)).mapM E.chunkMsg
  -- commitments, lines 495-504
  let coms := List.zipWith (fun m rnd => E.mul m rnd) msg R.rnds
  let comr := E.mul R.r R.rndR
  -- lines 508-519, 340-352
  let coms' := coms.map fun c => (E.dec (E.enc c)).getD 0
  let comr' := (E.dec (E.enc comr)).getD 0
  let digest := E.hash (com ++ msgCom ++ coms.flatMap E.enc ++ E.enc comr)
  let chi := (List.range msg.length).map (E.chi digest)
  let yKEY := E.linearKey rKEY chi batchK
  let yMAC := E.linearKey rMAC chi batchM
  let comY := linearCombCom (coms' ++ [comr']) (chi ++ [1])
  let rndY := E.linearCombRand (R.rnds ++ [R.rndR]) (chi ++ [1])
  let msgY := E.linearCombRand (msg ++ [(R.r : Int)]) (chi ++ [1])
  let yMACcom := E.hash (blockBytes R.ySeed ++ bn2bin yMAC.toNat)
  -- lines 405, 581
  let recvOk := E.openRecv com msgCom R.seed bDelta R.aDelta macs
  -- lines 403, 407-428
  let sendOk := E.openCheck comY rndY msgY
    && yMACcom == E.hash (blockBytes R.ySeed ++ bn2bin yMAC.toNat)
    && yMAC == (yKEY + (msgY * R.aDelta) % E.q) % E.q
  .ok ⟨sendOk, recvOk, coms', coms⟩

end Verif.Model.ComConv
