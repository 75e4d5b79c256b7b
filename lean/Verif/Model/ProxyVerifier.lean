import Verif.Model.ProxyTls
import Verif.Model.ZkVerifier

/-!
The proxy model on the side of BOB, the verifier: the calls of `AESProver` (`protocol/prove_aes.h:211-303`).

Each call opens one value to both parties (`reveal(PUBLIC)`, lines 227, 249, 275, 298): ALICE sends bits, BOB puts its keys corrected by these bits
(`Verif.Model.ZkVerifier`, `Item.opening`; emp-zk, external) and compares the bits received with the public data.  At the end (`finalize_proxy_protocol`,
`protocol/prove_aes.h:40-45`) BOB compares the digest of its blocks with the one received.
-/

namespace Verif.Model.ProxyVerifier
open Integer AEAD AESProver Proxy ZkVerifier

/-- A call of a public member of `AESProver`. `protocol/prove_aes.h:211,235,258,283`. -/
inductive AESCall where
  /-- `prove_public_msgs`, `protocol/prove_aes.h:211` -/
  | pub (iv msgs ctxts : List Byte)
  /-- `prove_private_msgs`, `protocol/prove_aes.h:235` -/
  | priv (iv : List Byte) (msgs : Integer) (ctxts : List Byte)
  /-- `prove_public_msgs_opt`, `protocol/prove_aes.h:258` -/
  | pubOpt (infos : List CounterInfo) (iv msgs ctxts : List Byte)
  /-- `prove_private_msgs_opt`, `protocol/prove_aes.h:283` -/
  | privOpt (infos : List CounterInfo) (iv : List Byte) (msgs : Integer) (ctxts : List Byte)

/-- The call when both parties follow the protocol. `protocol/prove_aes.h:211-305`. -/
def AESCall.run (E : Block → Block) (fiv : Integer) : AESCall → Res Bool
  | .pub iv m c => provePublic E fiv iv m c
  | .priv iv m c => provePrivate E fiv iv m c c.length
  | .pubOpt i iv m c => provePublicOpt E fiv i iv m c
  | .privOpt i iv m c => provePrivateOpt E fiv i iv m c c.length

/-- The value opened by the public members, with the bounds of the buffer, `protocol/prove_aes.h:216-227`, `264-275`. -/
def openPublic (c : Integer) (msgs : List Byte) : Res Integer :=
  if (toBytes c).length > msgs.length then .error (.ub "reveal writes past the buffer")
  else if (toBytes c).length < msgs.length then .error (.ub "memcmp of uninitialised bytes")
  else .ok c

/-- The value opened by the private members, `protocol/prove_aes.h:240-249`, `289-298`. -/
def openPrivate (c msgs : Integer) (n : Nat) : Res Integer :=
  if msgs.length ≠ 8 * n then .error (.error "assert(msgs.size() == 8 * msg_len)")
  else if c.length ≠ msgs.length then .error (.ub "xor of integers of different size")
  else .ok (xor c msgs)

/-- The value a call opens. `protocol/prove_aes.h:211-305`. -/
def AESCall.opened (E : Block → Block) (fiv : Integer) : AESCall → Res Integer
  | .pub iv m _ => do openPublic (← computeCounter E fiv iv m.length) m
  | .priv iv m c => do openPrivate (← computeCounter E fiv iv c.length) m c.length
  | .pubOpt i iv m _ => do openPublic (← computeCounterOpt E fiv i iv) m
  | .privOpt i iv m c => do openPrivate (← computeCounterOpt E fiv i iv) m c.length

/-- What BOB returns when it has received the bits `y`: `protocol/prove_aes.h:218-221,228`, `250-251`, `266-269,276`, `299-300`. -/
def AESCall.judge (y : Integer) : AESCall → Bool
  | .pub _ m c => toBytes y == (xorBytes m c).reverse
  | .priv _ _ c => (toBytes y).reverse == c
  | .pubOpt _ _ m c => toBytes y == (xorBytes m c).reverse
  | .privOpt _ _ _ c => (toBytes y).reverse == c

/-- The values opened by a sequence of calls; `P` tells the function and the fixed nonce of the object called.
Not in the code: calls of `protocol/prove_aes.h:211-305`. -/
def openedAll (P : Bool → (Block → Block) × Integer) : List (Bool × AESCall) → Res (List Integer)
  | [] => .ok []
  | (d, c) :: l => do
    let x ← c.opened (P d).1 (P d).2
    let xs ← openedAll P l
    .ok (x :: xs)

/-- BOB accepts all calls with the bits received.
The comparisons `protocol/prove_aes.h:228,251,276,300`. -/
def judgeAll : List (Bool × AESCall) → List Integer → Bool
  | [], [] => true
  | (_, c) :: l, y :: ys => c.judge y && judgeAll l ys
  | _, _ => false

/-- The items of the openings. The calls of `reveal` in `protocol/prove_aes.h:211-305`. -/
def openings (xs ys : List Integer) : List Item := List.zipWith .opening xs ys

/-- The calls of `prove_proxy_tls`, `test/prove_proxy_tls.cpp:65-86`, given the values of the finished messages and the value of ALICE's message. -/
def sessionCalls (fc fs m : Integer) (s : Session) : List (Bool × AESCall) :=
  [(true, .priv s.ivC (fc ++ ofBytes finHead.reverse) s.finC), (false, .priv s.ivS (fs ++ ofBytes finHead.reverse) s.finS), (true, .priv s.ivM m s.ctxt)]

/-- `prove_proxy_tls` on BOB's side, given what the derivation (`test/prove_proxy_tls.cpp:37-59`) has come out with: the calls and the values opened. -/
def sessionGiven (j1 j2 : AESCircuit.Wires) (t : Traffic) (fc fs m : Integer) (s : Session) : Res (List Integer) := do
  let pc ← aesProver j1 j2 t.keyC t.ivC
  let ps ← aesProver j1 j2 t.keyS t.ivS
  openedAll (fun d => if d then pc else ps) (sessionCalls fc fs m s)

/-- The same after the derivation by `PRFProver`, `test/prove_proxy_tls.cpp:37-89`. -/
def sessionBob (q : Nat) (g : Nat → List Byte) (j1 j2 : AESCircuit.Wires) (s : Session) : Res (List (Bool × AESCall) × List Integer) := do
  let p : Prover := { q := q }
  let (ms, p) ← p.extendedMasterKey g [] s.pms s.hash
  let (t, p) ← p.expansionKeys g ms s.rc s.rs
  let (fc, p) ← p.clientFinished g [] ms s.tauC
  let (fs, _) ← p.serverFinished g [] ms s.tauS
  let m := ofBytes s.msg.reverse
  let xs ← sessionGiven j1 j2 t fc fs m s
  .ok (sessionCalls fc fs m s, xs)

end Verif.Model.ProxyVerifier
