import Verif.Model.Handshake
import Verif.Model.ZkReplay
import Verif.Model.AESProver
import Verif.Model.AESCircuit

/-!
The proxy model: `PRFProver` of `protocol/prove_prf.h`, the constructor of `AESProver` (`protocol/prove_aes.h:67-73`), and their use in
`test/prove_proxy_tls.cpp:21-89`.

The code runs in the zero-knowledge backend; an `Integer` is the authenticated value.  An input of ALICE is what ALICE passes.
-/

namespace Verif.Model.Proxy
open Integer SHA

/-- Members of `PRFProver`, `protocol/prove_prf.h:19-29`. -/
structure Prover where
  hmac : Hmac := Hmac.new
  prf : Prf := Prf.new
  q : Nat
  ri : Bool := true
  ro : Bool := true
  zk : Bool := false

/-- The call of `prf.opt_compute` with the flags of the object, `protocol/prove_prf.h:70-72,95-98,119-121,135-137,142-144`. -/
def Prover.prfCall (p : Prover) (g : Nat → List Byte) (res : Integer) (bitlen : Nat) (label seed : List Byte) :
    Res (Integer × Prover) := do
  let (r, f, m) ← p.prf.optCompute p.hmac g res bitlen label seed p.ri p.ro p.zk
  .ok (r, { p with prf := f, hmac := m })

/-- The input of the pre-master secret and `prf.init`, `protocol/prove_prf.h:52-62,69` and `83-94`. -/
def Prover.key (p : Prover) (pms : Nat) : Res Prover := do
  let buf ← bnBuffer (bnNumBytes p.q) pms
  let (f, m) ← p.prf.init p.hmac (ofBytes buf)
  .ok { p with prf := f, hmac := m }

/-- `prove_master_key`, `protocol/prove_prf.h:45-75`; `ms` is the object written to. -/
def Prover.masterKey (p : Prover) (g : Nat → List Byte) (ms : Integer) (pms : Nat) (rc rs : List Byte) : Res (Integer × Prover) := do
  let p ← p.key pms
  p.prfCall g ms (masterKeyLength * 8) masterKeyLabel (rc ++ rs)

/-- `prove_extended_master_key`, `protocol/prove_prf.h:78-101`. -/
def Prover.extendedMasterKey (p : Prover) (g : Nat → List Byte) (ms : Integer) (pms : Nat) (hash : List Byte) :
    Res (Integer × Prover) := do
  let p ← p.key pms
  p.prfCall g ms (extendedMasterKeyLength * 8) extendedMasterKeyLabel hash

/-- The four keys, in the order of the parameters of `prove_expansion_keys`.
`protocol/prove_prf.h:103-107`. -/
structure Traffic where
  keyC : Integer
  keyS : Integer
  ivC : Integer
  ivS : Integer

/-- `prove_expansion_keys`, `protocol/prove_prf.h:103-131`. -/
def Prover.expansionKeys (p : Prover) (g : Nat → List Byte) (ms : Integer) (rc rs : List Byte) : Res (Traffic × Prover) := do
  let (f, m) ← p.prf.init p.hmac ms
  let (key, p) ← Prover.prfCall { p with prf := f, hmac := m } g [] (expansionKeyLength * 8) keyExpansionLabel (rs ++ rc)
  let kc ← extractInteger key 0 (keyLength * 8)
  let ks ← extractInteger key (keyLength * 8) (keyLength * 8)
  let ic ← extractInteger key (keyLength * 8 * 2) (ivLength * 8)
  let is ← extractInteger key (keyLength * 8 * 2 + ivLength * 8) (ivLength * 8)
  .ok (⟨kc, ks, ic, is⟩, p)

/-- `prove_client_finished_msg`, `protocol/prove_prf.h:133-138`.  `ms` is passed to `opt_compute`, which does not read it
(`cipher/prf.h:59-130`): the key is the one of the last `init`. -/
def Prover.clientFinished (p : Prover) (g : Nat → List Byte) (ufin _ms : Integer) (tau : List Byte) : Res (Integer × Prover) :=
  p.prfCall g ufin (finishedMsgLength * 8) clientFinishedLabel tau

/-- `prove_server_finished_msg`, `protocol/prove_prf.h:140-145`. -/
def Prover.serverFinished (p : Prover) (g : Nat → List Byte) (ufin _ms : Integer) (tau : List Byte) : Res (Integer × Prover) :=
  p.prfCall g ufin (finishedMsgLength * 8) serverFinishedLabel tau

/-! ### Call sequences -/

/-- A public call; the objects written to are given. `protocol/prove_prf.h:45,78,103,133,140`. -/
inductive Call where
  | master (g : Nat → List Byte) (ms : Integer) (pms : Nat) (rc rs : List Byte)
  | extended (g : Nat → List Byte) (ms : Integer) (pms : Nat) (hash : List Byte)
  | expansion (g : Nat → List Byte) (ms : Integer) (rc rs : List Byte)
  | clientFinished (g : Nat → List Byte) (ufin ms : Integer) (tau : List Byte)
  | serverFinished (g : Nat → List Byte) (ufin ms : Integer) (tau : List Byte)

/-- One call; the integers it writes. `protocol/prove_prf.h:45-145`. -/
def Prover.step (p : Prover) : Call → Res (List Integer × Prover)
  | .master g ms pms rc rs => do let (r, p) ← p.masterKey g ms pms rc rs; .ok ([r], p)
  | .extended g ms pms h => do let (r, p) ← p.extendedMasterKey g ms pms h; .ok ([r], p)
  | .expansion g ms rc rs => do let (t, p) ← p.expansionKeys g ms rc rs; .ok ([t.keyC, t.keyS, t.ivC, t.ivS], p)
  | .clientFinished g u ms tau => do let (r, p) ← p.clientFinished g u ms tau; .ok ([r], p)
  | .serverFinished g u ms tau => do let (r, p) ← p.serverFinished g u ms tau; .ok ([r], p)

/-- A sequence of calls. Not in the code: calls of the members of `protocol/prove_prf.h:18`. -/
def Prover.run (p : Prover) : List Call → Res (List (List Integer) × Prover)
  | [] => .ok ([], p)
  | c :: cs => do
    let (o, p) ← p.step c
    let (os, p) ← p.run cs
    .ok (o :: os, p)

/-! ### AES -/

/-- `computeAES_KS(expanded_key, ·)` on blocks, `cipher/utils.h:249-254`. -/
def aesFun (j2 : AESCircuit.Wires) (ek : Integer) (b : Block) : Block :=
  match AESCircuit.computeAESKS j2 ek (ofNat 128 b.toNat) with
  | .ok r => AEAD.blk r
  | .error _ => 0

/-- Constructor of `AESProver`, `protocol/prove_aes.h:67-73`: the function `computeAES_KS(expanded_key, ·)` and `fixed_iv`. -/
def aesProver (j1 j2 : AESCircuit.Wires) (key iv : Integer) : Res ((Block → Block) × Integer) :=
  if key.length ≠ 128 then .error (.error "assert(key.size() == 128)")
  else do
    let ek ← AESCircuit.computeKS j1 key
    if iv.length ≠ 32 then .error (.error "assert(iv.size() == 32)")
    else .ok (aesFun j2 ek, iv)

/-! ### A session -/

/-- What the proxy has recorded, and what the prover inputs.
Parameters of `protocol/prove_prf.h:45-145`, `protocol/prove_aes.h:211-305`. -/
structure Session where
  pms : Nat
  hash : List Byte
  rc : List Byte
  rs : List Byte
  tauC : List Byte
  tauS : List Byte
  ivC : List Byte
  finC : List Byte
  ivS : List Byte
  finS : List Byte
  ivM : List Byte
  msg : List Byte
  ctxt : List Byte

/-- The header of a finished message, `test/prove_proxy_tls.cpp:53`. -/
def finHead : List Byte := [0x14, 0x00, 0x00, 0x0c]

/-- `prove_proxy_tls`, `test/prove_proxy_tls.cpp:37-89`: extended master secret, keys, the two finished messages and one private message of
the client.  A refused proof ends the program (`error`). -/
def session (q : Nat) (g : Nat → List Byte) (j1 j2 : AESCircuit.Wires) (s : Session) : Res Bool := do
  let p : Prover := { q := q }
  let (ms, p) ← p.extendedMasterKey g [] s.pms s.hash
  let (t, p) ← p.expansionKeys g ms s.rc s.rs
  let (fc, p) ← p.clientFinished g [] ms s.tauC
  let (fs, _) ← p.serverFinished g [] ms s.tauS
  let fc := fc ++ ofBytes finHead.reverse
  let fs := fs ++ ofBytes finHead.reverse
  let (ec, ic) ← aesProver j1 j2 t.keyC t.ivC
  let (es, is) ← aesProver j1 j2 t.keyS t.ivS
  let b ← AESProver.provePrivate ec ic s.ivC fc s.finC s.finC.length
  if !b then .error (.error "prove client finish msg error")
  else do
    let b ← AESProver.provePrivate es is s.ivS fs s.finS s.finS.length
    if !b then .error (.error "prove server finish msg error")
    else do
      let b ← AESProver.provePrivate ec ic s.ivM (ofBytes s.msg.reverse) s.ctxt s.ctxt.length
      if !b then .error (.error "prove http msg error")
      else .ok b

/-! ### A cheating prover -/

/-- Loop of `opt_phash`, `cipher/prf.h:86-125`, with `zk_flag == false`, where ALICE inputs `feed i dig` instead of the inner digest `dig` in
the `i`-th last call of `opt_hmac_sha256` (`cipher/hmac_sha256.h:94`). -/
def phashFeed (feed : Nat → List (BitVec 32) → List (BitVec 32)) (g : Nat → List Byte) (seed : List Byte) (ri ro : Bool) :
    Nat → Prf → Hmac → List Byte → Integer → Res (Integer × Prf × Hmac)
  | 0, p, m, _, res => .ok (res, p, m)
  | n + 1, p, m, a, res => do
    let (tmp, m) ← m.optHmacFeed (g (2 * n + 1)) a ri ro false (feed (2 * n + 1))
    let tmpd := revealWords tmp
    let p := { p with calls := p.calls + 1, pubM := p.pubM ++ [tmpd] }
    let a := tmpd.flatMap wordBytes
    let (tmp, m) ← m.optHmacFeed (g (2 * n)) (a ++ seed) ri ro false (feed (2 * n))
    phashFeed feed g seed ri ro n { p with calls := p.calls + 1 } m a (concat res tmp)

/-- `prfCall` of a cheating ALICE. `protocol/prove_prf.h:45-145`. -/
def Prover.prfCallFeed (p : Prover) (feed : Nat → List (BitVec 32) → List (BitVec 32)) (g : Nat → List Byte) (res : Integer) (bitlen : Nat)
    (label seed : List Byte) : Res (Integer × Prover) := do
  let (r, f, m) ← phashFeed feed g (label ++ seed) p.ri p.ro (prfBlocks bitlen) p.prf p.hmac (label ++ seed) res
  .ok (prfTrunc r bitlen, { p with prf := f, hmac := m })

end Verif.Model.Proxy
