import Verif.Model.NoAssert
import Verif.Model.ComConv
import Verif.Model.ProxyTls

/-!
The remaining functions with an `assert`, for both kinds of build: `backend/ole.h`, `protocol/com_conv.h` and the constructor of `AESProver` (`protocol/prove_aes.h`).

`compute_com_send` and `compute_com_recv` write to vectors of the caller; here the vectors have any length.  The offline classes of `cipher/sha256.h` (lines 644, 688, 732) have the
assertions of the online ones on the same lengths and are not repeated.
-/

namespace Verif.Model.NoAssert
open Integer

/-! ### OLE -/

/-- `OLE::compute` of both parties, `backend/ole.h:42-93`: the loops run over `out`; `nS`, `nR` are the sizes of `out` of the party holding `Δ` and of the other one. -/
def oleCompute (b : Build) (ccrh : Block → Block) (q : Int) (n : Nat) (delta : Block) (K : Nat → Block) (nS nR : Nat) (ins inr : List Int) :
    Res (List Int × List Int × List Int) := do
  check b (nS = ins.length) "assert(out.size() == in.size())"
  check b (nR = inr.length) "assert(out.size() == in.size())"
  if ins.length < nS ∨ inr.length < nR then .error (.ub "in[i] out of range")
  else OLE.compute ccrh q n delta K (ins.take nS) (inr.take nR)

/-! ### Commitment conversion -/

section
open ComConv SHA Network
variable {G : Type} [AddCommGroup G]

/-- `linear_comb_com`, `protocol/com_conv.h:45-57`: the loop runs over `coef`. -/
def linearCombCom (b : Build) (coms : List G) (coef : List Int) : Res G := do
  check b (coms.length = coef.length) "assert(coms.size() == coef.size())"
  if coms.length < coef.length then .error (.ub "coms[i] out of range")
  else .ok (ComConv.linearCombCom coms coef)

/-- `linear_comb_rand`, `protocol/com_conv.h:59-71`. -/
def linearCombRand (b : Build) (E : Env G) (vals coef : List Int) : Res Int := do
  check b (vals.length = coef.length) "assert(rnds.size() == coef.size())"
  if vals.length < coef.length then .error (.ub "rnds[i] out of range")
  else .ok (E.linearCombRand vals coef)

/-- The vectors of the caller before the call: `com` of the sender, `com` and `rnds` of the receiver.
The parameters of `protocol/com_conv.h:282,433`. -/
structure Vectors (G : Type) where
  comS : List G
  comR : List G
  rnds : List Int

/-- A loop `for i < l.length: v[i] = l[i]` on a vector `v` of the caller.
As in `protocol/com_conv.h:282-587`. -/
def store {α : Type} (v l : List α) (what : String) : Res (List α) :=
  if v.length < l.length then .error (.ub what) else .ok (l ++ v.drop l.length)

/-- `compute_com_send` and `compute_com_recv` run together, `protocol/com_conv.h:282-431` and `433-587`, as `ComConv.Env.run` but with vectors of any length.  `comms` (line 377) is the
whole of `com` followed by the commitment of `r`, `crnds` (line 547) the whole of `rnds` followed by its randomness; `rnds` of `Rand` are the numbers drawn by `commit`.
The assertion of `convert` (line 199) compares vectors which the code has sized itself (lines 157, 234, 313, 464). -/
def comRun [DecidableEq G] (b : Build) (E : Env G) (keySends : Bool) (bDelta : Block) (keys macs : List Block) (bs : Nat) (R : Rand)
    (V : Vectors G) : Res (Out G) := do
  batchCheck E.q bs
  let com := E.computeHash R.seed bDelta R.aDelta
  let (rKEY, rMAC) ← E.mask keySends R
  let (aKEYs, msgs) := E.convert bDelta R.aDelta keys
  let msgCom := E.hash (msgBytes msgs)
  let aMACs := E.convertRecv macs msgs
  let batchK ← (chunks bs aKEYs).mapM E.chunkSum
  let batchM ← (chunks bs aMACs).mapM E.chunkSum
  let msg ← (chunks bs (macs.map fun m => m.getLsbD 0)).mapM E.chunkMsg
  -- lines 495-504, 508-519
  let coms := List.zipWith (fun m rnd => E.mul m rnd) msg R.rnds
  let comR ← store V.comR coms "com[i] out of range (receiver)"
  let rnds ← store V.rnds R.rnds "rnds[i] out of range"
  let comr := E.mul R.r R.rndR
  -- lines 340-352
  let coms' := coms.map fun c => (E.dec (E.enc c)).getD 0
  let comS ← store V.comS coms' "com[i] out of range (sender)"
  let comr' := (E.dec (E.enc comr)).getD 0
  let digest := E.hash (com ++ msgCom ++ coms.flatMap E.enc ++ E.enc comr)
  let chi := (List.range msg.length).map (E.chi digest)
  let yKEY := E.linearKey rKEY chi batchK
  let yMAC := E.linearKey rMAC chi batchM
  let comY ← linearCombCom b (comS ++ [comr']) (chi ++ [1])
  let rndY ← linearCombRand b E (rnds ++ [R.rndR]) (chi ++ [1])
  let msgY ← linearCombRand b E (msg ++ [(R.r : Int)]) (chi ++ [1])
  let yMACcom := E.hash (blockBytes R.ySeed ++ bn2bin yMAC.toNat)
  let recvOk := E.openRecv com msgCom R.seed bDelta R.aDelta macs
  let sendOk := E.openCheck comY rndY msgY
    && yMACcom == E.hash (blockBytes R.ySeed ++ bn2bin yMAC.toNat)
    && yMAC == (yKEY + (msgY * R.aDelta) % E.q) % E.q
  .ok ⟨sendOk, recvOk, comS, comR⟩

end

/-! ### The prover of the proxy protocol -/

/-- Constructor of `AESProver`, `protocol/prove_aes.h:67-73`: `expanded_key` and `fixed_iv`. -/
def aesProver (b : Build) (j : AESCircuit.Wires) (key iv : Integer) : Res (Integer × Integer) := do
  check b (key.length = 128) "assert(key.size() == 128)"
  let ek ← AESCircuit.computeKS j key
  check b (iv.length = 32) "assert(iv.size() == 32)"
  .ok (ek, iv)

/-- The loop of `AESProver::gctr`, `protocol/prove_aes.h:94-100`, with the circuit: `computeAES_KS` reads the first 128 bits of the nonce (`cipher/utils.h:249-254`). -/
def gctrCircuit (j : AESCircuit.Wires) (ek : Integer) : Nat → Integer → Res (List Integer)
  | 0, _ => .ok []
  | m + 1, nonce => do
    let tmp ← AESCircuit.computeAESKS j ek nonce
    let nonce ← AEAD.inc nonce 32
    let rest ← gctrCircuit j ek m nonce
    .ok (tmp :: rest)

/-- Constructor, `set_nonce` (`protocol/prove_aes.h:126-141`) and `gctr`: the first `m` blocks of the key stream. -/
def aesStream (b : Build) (j1 j2 : AESCircuit.Wires) (key fixedIv : Integer) (iv : List Byte) (m : Nat) : Res (List Integer) := do
  let (ek, fixedIv) ← aesProver b j1 key fixedIv
  let nonce ← setNonce b fixedIv iv
  gctrCircuit j2 ek m nonce

end Verif.Model.NoAssert
