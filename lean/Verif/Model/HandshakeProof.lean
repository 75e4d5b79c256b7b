import Verif.Model.Handshake
import Verif.Model.ZkReplay
import Verif.Model.PostRecord

/-!
The proof phase of the handshake: `prove_*` and `handshake_check` of `protocol/handshake.h:373-531`, called by the three
`prove_and_check_handshake_step*` of `protocol/post_record.h:74-120`.

The code runs in the zero-knowledge backend; an `Integer` is the authenticated value.  `check_zero` calls are recorded as
`AEADProof.Check.data` (what such a check establishes is C32).
-/

namespace Verif.Model
open Integer SHA AEADProof

/-- A `HandShake` object of both parties, with the two parties' `bn_pms` (`protocol/handshake.h:62-64`), set to the party's share by
`compute_pms_online`, `protocol/handshake.h:182-183`. -/
structure HsP where
  hs : Hs
  bnA : Nat
  bnB : Nat

/-- `prf.opt_compute(…, true, true, true)` or `prf.opt_rounds_compute(…, true, true, true)`,
`protocol/handshake.h:403-410,436-444,463-471,490-496,507-513`. -/
def Hs.prfCallZk (h : Hs) (g : Nat → List Byte) (res : Integer) (bitlen : Nat) (label seed : List Byte) :
    Res (Integer × Hs) := do
  let (r, p, m) ← if !h.roundsOpt then h.prf.optCompute h.hmac g res bitlen label seed true true true
    else h.prf.optRoundsCompute h.hmac res bitlen label seed true true
  .ok (r, { h with prf := p, hmac := m })

/-- The common part of `prove_master_key` and `prove_extended_master_key`, `protocol/handshake.h:381-401,421-434`.  ALICE's
`bn_pms` is overwritten (line 387).  `z1` is a public input (line 393): each party passes its own buffer; if they differ, the
parties hold different constants for the same wires, which is not an authenticated value: recorded as an error. -/
def HsP.proveKey (h : HsP) (pms : Nat) : Res HsP := do
  let len := bnNumBytes h.hs.q
  let bnA := ((pms : Int) - h.bnA) % h.hs.q |>.toNat
  let bufA ← bnBuffer len bnA
  let bufB ← bnBuffer len h.bnB
  if bufA ≠ bufB then .error (.error "public inputs of the parties differ")
  else
    let z1 := ofBytes bufB
    let pmsbits := addmod z1 h.hs.zkPms h.hs.q
    let (p, m) ← h.hs.prf.init h.hs.hmac pmsbits
    .ok { h with hs := { h.hs with prf := p, hmac := m }, bnA := bnA }

/-- `prove_master_key`, `protocol/handshake.h:373-412`; `ms` is the object written to. -/
def HsP.proveMasterKey (h : HsP) (g : Nat → List Byte) (ms : Integer) (pms : Nat) (rc rs : List Byte) : Res (Integer × HsP) := do
  let h ← h.proveKey pms
  let (r, hs) ← h.hs.prfCallZk g ms (masterKeyLength * 8) masterKeyLabel (rc ++ rs)
  .ok (r, { h with hs := hs })

/-- `prove_extended_master_key`, `protocol/handshake.h:414-446`. -/
def HsP.proveExtendedMasterKey (h : HsP) (g : Nat → List Byte) (ms : Integer) (pms : Nat) (sessionHash : List Byte) :
    Res (Integer × HsP) := do
  let h ← h.proveKey pms
  let (r, hs) ← h.hs.prfCallZk g ms (extendedMasterKeyLength * 8) extendedMasterKeyLabel sessionHash
  .ok (r, { h with hs := hs })

/-- The keys of one session. `protocol/handshake.h:448-452`. -/
structure Keys where
  keyC : Integer
  keyS : Integer
  ivC : Integer
  ivS : Integer

/-- `prove_expansion_keys`, `protocol/handshake.h:448-480`. -/
def HsP.proveExpansionKeys (h : HsP) (g : Nat → List Byte) (ms : Integer) (rc rs : List Byte) : Res (Keys × HsP) := do
  let (p, m) ← h.hs.prf.init h.hs.hmac ms
  let (key, hs) ← Hs.prfCallZk { h.hs with prf := p, hmac := m } g [] (expansionKeyLength * 8) keyExpansionLabel (rs ++ rc)
  let kc ← extractInteger key 0 (keyLength * 8)
  let ks ← extractInteger key (keyLength * 8) (keyLength * 8)
  let ic ← extractInteger key (keyLength * 8 * 2) (ivLength * 8)
  let is ← extractInteger key (keyLength * 8 * 2 + ivLength * 8) (ivLength * 8)
  .ok (⟨kc, ks, ic, is⟩, { h with hs := hs })

/-- `prove_client_finished_msg`, `protocol/handshake.h:482-498` (`ms` is not used by the code). -/
def HsP.proveClientFinished (h : HsP) (g : Nat → List Byte) (label tau : List Byte) : Res (Check × HsP) := do
  let (ufin, hs) ← h.hs.prfCallZk g [] (finishedMsgLength * 8) label tau
  let c ← checkData ufin hs.clientUfin finishedMsgLength
  .ok (c, { h with hs := hs })

/-- `prove_server_finished_msg`, `protocol/handshake.h:500-516`. -/
def HsP.proveServerFinished (h : HsP) (g : Nat → List Byte) (label tau : List Byte) : Res (Check × HsP) := do
  let (ufin, hs) ← h.hs.prfCallZk g [] (finishedMsgLength * 8) label tau
  let c ← checkData ufin hs.serverUfin finishedMsgLength
  .ok (c, { h with hs := hs })

/-- The seed material of the master key: `is_extended_master_key` of `protocol/post_record.h:84-89`. -/
inductive MasterSeed where
  | plain
  | extended (hash : List Byte)

/-- The choice in `protocol/post_record.h:85-89`. -/
def HsP.proveMaster (h : HsP) (g : Nat → List Byte) (ms : Integer) (pms : Nat) (k : MasterSeed) (rc rs : List Byte) :
    Res (Integer × HsP) :=
  match k with
  | .plain => h.proveMasterKey g ms pms rc rs
  | .extended hash => h.proveExtendedMasterKey g ms pms hash

/-- The derivation in `prove_and_check_handshake_step1`, `protocol/post_record.h:84-97`: master key, traffic keys, the two
finished checks.  `ms` is the member `master_key` of `PostRecord`. -/
def HsP.proveSchedule (h : HsP) (g : Nat → List Byte) (ms : Integer) (pms : Nat) (k : MasterSeed) (rc rs tauC tauS : List Byte) :
    Res (Integer × Keys × Check × Check × HsP) := do
  let (ms, h) ← h.proveMaster g ms pms k rc rs
  let (ks, h) ← h.proveExpansionKeys g ms rc rs
  let (cc, h) ← h.proveClientFinished g clientFinishedLabel tauC
  let (cs, h) ← h.proveServerFinished g serverFinishedLabel tauS
  .ok (ms, ks, cc, cs, h)

/-- The caller uses one of the two master key functions. `protocol/handshake.h:187,232`. -/
def Hs.computeMaster (h : Hs) (g : Nat → List Byte) (a b : Nat) (k : MasterSeed) (rc rs : List Byte) : Res Hs :=
  match k with
  | .plain => h.computeMasterKey g a b rc rs
  | .extended hash => h.computeExtendedMasterKey g a b hash

/-- The online derivation, in the order of the handshake (`test/protocol.cpp:79-91`). -/
def Hs.schedule (h : Hs) (g : Nat → List Byte) (a b : Nat) (k : MasterSeed) (rc rs tauC tauS : List Byte) : Res Hs := do
  let h ← h.computeMaster g a b k rc rs
  let h ← h.computeExpansionKeys g rc rs
  let h ← h.computeClientFinished g clientFinishedLabel tauC
  h.computeServerFinished g serverFinishedLabel tauS

end Verif.Model
