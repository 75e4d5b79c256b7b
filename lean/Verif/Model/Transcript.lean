import Verif.Model.HandshakeProof
import Verif.Model.SessionGiven

/-!
The handshake and its proof with parties that pass different labels, randoms and hashes to the calls.

The other models have one argument for what both parties pass.  Here ALICE and BOB each have their own.  What is fed into the circuit as an input of ALICE
(`cipher/hmac_sha256.h:94`, `cipher/prf.h:150`) is ALICE's.
-/

namespace Verif.Model.SHA
open Verif.Model Verif.Model.Integer

/-- The owner of an input. As in `cipher/hmac_sha256.h:94`, `protocol/handshake.h:207-208`. -/
inductive Owner where
  | alice
  | bob

/-- An input of one party: `Integer(len, value, party)` takes the value of the owner and ignores that of the other.
As in `cipher/hmac_sha256.h:94`, `protocol/handshake.h:207-208`. -/
def ofOwner {α : Type} (w : Owner) (a b : α) : α :=
  match w with
  | .alice => a
  | .bob => b

/-- `opt_hmac_sha256`, `cipher/hmac_sha256.h:76-102`, where the parties pass `msgA` and `msgB`: the opened state is common, each party computes its own inner digest, and
the digest is an input of ALICE (line 94). -/
def Hmac.optHmacTwo (m : Hmac) (gA gB msgA msgB : List Byte) (ri ro zk : Bool) : Res (List Integer × Hmac) := do
  let (st, sha) ← m.sha.optFirst m.iKeyPad ri zk
  let digA := plainTail gA st msgA
  let digB := plainTail gB st msgB
  let oMsg := concat m.oKeyPad ((ofOwner .alice digA digB).map fun d => ofNat 32 d.toNat)
  let (res, sha) ← sha.digest oMsg ro
  .ok (res, { m with sha := sha, shaCalls := m.shaCalls + 2 })

/-- Loop of `opt_phash`, `cipher/prf.h:86-125`; `aA`, `aB` are the byte strings `A[i-1]` of the parties. -/
def optPhashTwo (gA gB : Nat → List Byte) (seedA seedB : List Byte) (ri ro zk : Bool) :
    Nat → Prf → Hmac → List Byte → List Byte → Integer → Res (Integer × Prf × Hmac)
  | 0, p, m, _, _, res => .ok (res, p, m)
  | n + 1, p, m, aA, aB, res => do
    let (tmp, m) ← m.optHmacTwo (gA (2 * n + 1)) (gB (2 * n + 1)) aA aB ri ro zk
    let (tmpd, p) ← (if !zk then
        let tmpd := revealWords tmp
        .ok (tmpd, { p with calls := p.calls + 1, pubM := p.pubM ++ [tmpd] })
      else
        match p.pubM[p.zkPos]? with
        | some tmpd => .ok (tmpd, { p with calls := p.calls + 1, zkSecM := p.zkSecM ++ [reverseConcat [] tmp],
                                           zkPos := p.zkPos + 1 })
        | none => .error (.ub "opt_phash: pub_M[zk_pos] out of range") : Res (List (BitVec 32) × Prf))
    let a := tmpd.flatMap wordBytes
    let (tmp, m) ← m.optHmacTwo (gA (2 * n)) (gB (2 * n)) (a ++ seedA) (a ++ seedB) ri ro zk
    optPhashTwo gA gB seedA seedB ri ro zk n { p with calls := p.calls + 1 } m a a (concat res tmp)

/-- `opt_rounds_phash`, `cipher/prf.h:132-170`: `A[0]` is an input of ALICE (line 150), of the length each party computes from its own seed.  With different lengths
the parties garble and evaluate different circuits: recorded as an error. -/
def Prf.optRoundsPhashTwo (p : Prf) (m : Hmac) (res : Integer) (bitlen : Nat) (seedA seedB : List Byte) (ri ro : Bool) : Res (Integer × Prf × Hmac) := do
  if seedA.length ≠ seedB.length then .error (.error "the parties run different circuits")
  let a0 := ofOwner .alice (ofBytes seedA.reverse) (ofBytes seedB.reverse)
  let (res, p, m) ← roundsPhashLoop a0 ri ro (prfBlocks bitlen) p m a0 res
  .ok (prfTrunc res bitlen, p, m)

/-- `opt_compute` or `opt_rounds_compute`, `cipher/prf.h:184-222`: each party joins its own label and seed. -/
def Prf.computeTwo (p : Prf) (m : Hmac) (rounds : Bool) (gA gB : Nat → List Byte) (res : Integer) (bitlen : Nat) (labelA seedA labelB seedB : List Byte) (zk : Bool) :
    Res (Integer × Prf × Hmac) :=
  if !rounds then do
    let (res, p, m) ← optPhashTwo gA gB (labelA ++ seedA) (labelB ++ seedB) true true zk (prfBlocks bitlen) p m (labelA ++ seedA) (labelB ++ seedB) res
    .ok (prfTrunc res bitlen, p, m)
  else p.optRoundsPhashTwo m res bitlen (labelA ++ seedA) (labelB ++ seedB) true true

end Verif.Model.SHA

namespace Verif.Model
open Integer SHA AEADProof

/-- What a party passes to the calls of the handshake: which master key function, the randoms, the two hashes of the finished messages.
The parameters of `protocol/handshake.h:187,232,268,298,313`. -/
structure Passed where
  k : MasterSeed
  rc : List Byte
  rs : List Byte
  tauC : List Byte
  tauS : List Byte

/-- Label of the master key function called, `protocol/handshake.h:219-226,257-264`. -/
def Passed.label (x : Passed) : List Byte :=
  match x.k with
  | .plain => masterKeyLabel
  | .extended _ => extendedMasterKeyLabel

/-- Seed of the master key function called, `protocol/handshake.h:212-216,257-264`. -/
def Passed.seed (x : Passed) : List Byte :=
  match x.k with
  | .plain => x.rc ++ x.rs
  | .extended hash => hash

/-- `Hs.prfCall` and `Hs.prfCallZk` with two parties. `protocol/handshake.h:219-227`. -/
def Hs.prfCallTwo (h : Hs) (zk : Bool) (gA gB : Nat → List Byte) (res : Integer) (bitlen : Nat) (labelA seedA labelB seedB : List Byte) : Res (Integer × Hs) := do
  let (r, p, m) ← h.prf.computeTwo h.hmac h.roundsOpt gA gB res bitlen labelA seedA labelB seedB zk
  .ok (r, { h with prf := p, hmac := m })

/-- `compute_master_key` or `compute_extended_master_key`, `protocol/handshake.h:187-266`, as each party calls it (both lengths are 48 bytes). -/
def Hs.computeMasterTwo (h : Hs) (gA gB : Nat → List Byte) (a b : Nat) (A B : Passed) : Res Hs := do
  let h ← h.keyFromShares a b
  let (r, h) ← h.prfCallTwo false gA gB h.masterKey (masterKeyLength * 8) A.label A.seed B.label B.seed
  .ok { h with masterKey := r }

/-- `compute_expansion_keys`, `protocol/handshake.h:268-296`. -/
def Hs.computeExpansionKeysTwo (h : Hs) (gA gB : Nat → List Byte) (A B : Passed) : Res Hs := do
  let (p, m) ← h.prf.init h.hmac h.masterKey
  let h := { h with prf := p, hmac := m }
  let (key, h) ← h.prfCallTwo false gA gB [] (expansionKeyLength * 8) keyExpansionLabel (A.rs ++ A.rc) keyExpansionLabel (B.rs ++ B.rc)
  let cwk ← extractInteger key 0 (keyLength * 8)
  let swk ← extractInteger key (keyLength * 8) (keyLength * 8)
  let civ ← extractInteger key (keyLength * 8 * 2) (ivLength * 8)
  let siv ← extractInteger key (keyLength * 8 * 2 + ivLength * 8) (ivLength * 8)
  .ok { h with clientWriteKey := cwk, serverWriteKey := swk, clientWriteIv := civ, serverWriteIv := siv }

/-- `compute_client_finished_msg`, `protocol/handshake.h:298-311`. -/
def Hs.computeClientFinishedTwo (h : Hs) (gA gB : Nat → List Byte) (labelA tauA labelB tauB : List Byte) : Res Hs := do
  let (r, h) ← h.prfCallTwo false gA gB [] (finishedMsgLength * 8) labelA tauA labelB tauB
  .ok { h with clientUfin := toBytes r }

/-- `compute_server_finished_msg`, `protocol/handshake.h:313-327`. -/
def Hs.computeServerFinishedTwo (h : Hs) (gA gB : Nat → List Byte) (labelA tauA labelB tauB : List Byte) : Res Hs := do
  let (r, h) ← h.prfCallTwo false gA gB [] (finishedMsgLength * 8) labelA tauA labelB tauB
  .ok { h with serverUfin := toBytes r }

/-- The online derivation, `test/protocol.cpp:79-91`. -/
def Hs.scheduleTwo (h : Hs) (gA gB : Nat → List Byte) (a b : Nat) (A B : Passed) : Res Hs := do
  let h ← h.computeMasterTwo gA gB a b A B
  let h ← h.computeExpansionKeysTwo gA gB A B
  let h ← h.computeClientFinishedTwo gA gB clientFinishedLabel A.tauC clientFinishedLabel B.tauC
  h.computeServerFinishedTwo gA gB serverFinishedLabel A.tauS serverFinishedLabel B.tauS

/-- `prove_master_key` or `prove_extended_master_key`, `protocol/handshake.h:373-446`, as each party calls it. -/
def HsP.proveMasterTwo (h : HsP) (gA gB : Nat → List Byte) (ms : Integer) (pms : Nat) (A B : Passed) : Res (Integer × HsP) := do
  let h ← h.proveKey pms
  let (r, hs) ← h.hs.prfCallTwo true gA gB ms (masterKeyLength * 8) A.label A.seed B.label B.seed
  .ok (r, { h with hs := hs })

/-- `prove_expansion_keys`, `protocol/handshake.h:448-480`. -/
def HsP.proveExpansionKeysTwo (h : HsP) (gA gB : Nat → List Byte) (ms : Integer) (A B : Passed) : Res (Keys × HsP) := do
  let (p, m) ← h.hs.prf.init h.hs.hmac ms
  let (key, hs) ← Hs.prfCallTwo { h.hs with prf := p, hmac := m } true gA gB [] (expansionKeyLength * 8) keyExpansionLabel (A.rs ++ A.rc) keyExpansionLabel (B.rs ++ B.rc)
  let kc ← extractInteger key 0 (keyLength * 8)
  let ks ← extractInteger key (keyLength * 8) (keyLength * 8)
  let ic ← extractInteger key (keyLength * 8 * 2) (ivLength * 8)
  let is ← extractInteger key (keyLength * 8 * 2 + ivLength * 8) (ivLength * 8)
  .ok (⟨kc, ks, ic, is⟩, { h with hs := hs })

/-- `prove_client_finished_msg`, `protocol/handshake.h:482-498`. -/
def HsP.proveClientFinishedTwo (h : HsP) (gA gB : Nat → List Byte) (labelA tauA labelB tauB : List Byte) : Res (Check × HsP) := do
  let (ufin, hs) ← h.hs.prfCallTwo true gA gB [] (finishedMsgLength * 8) labelA tauA labelB tauB
  let c ← checkData ufin hs.clientUfin finishedMsgLength
  .ok (c, { h with hs := hs })

/-- `prove_server_finished_msg`, `protocol/handshake.h:500-516`. -/
def HsP.proveServerFinishedTwo (h : HsP) (gA gB : Nat → List Byte) (labelA tauA labelB tauB : List Byte) : Res (Check × HsP) := do
  let (ufin, hs) ← h.hs.prfCallTwo true gA gB [] (finishedMsgLength * 8) labelA tauA labelB tauB
  let c ← checkData ufin hs.serverUfin finishedMsgLength
  .ok (c, { h with hs := hs })

/-- The derivation of the proof phase, `protocol/post_record.h:84-97`. -/
def HsP.proveScheduleTwo (h : HsP) (gA gB : Nat → List Byte) (ms : Integer) (pms : Nat) (A B : Passed) : Res Session.Derived := do
  let (ms, h) ← h.proveMasterTwo gA gB ms pms A B
  let (ks, h) ← h.proveExpansionKeysTwo gA gB ms A B
  let (cc, h) ← h.proveClientFinishedTwo gA gB clientFinishedLabel A.tauC clientFinishedLabel B.tauC
  let (cs, h) ← h.proveServerFinishedTwo gA gB serverFinishedLabel A.tauS serverFinishedLabel B.tauS
  .ok (ms, ks, cc, cs, h)

/-- The proof phase, `test/protocol.cpp:127-142`. -/
def Session.Post.sessionTwo (junk : AESCircuit.Wires) (p : Session.Post) (gA gB : Nat → List Byte) (pms : Nat) (A B : Passed)
    (finc : PostRecord.Rec) (ivc : List Byte) (fins : PostRecord.Rec) (ivs : List Byte) (claims : List Session.Claim) (aadLen : Nat) :
    Res (Session.Post × Session.Verdict) := do
  let d ← p.hs.proveScheduleTwo gA gB p.master pms A B
  p.sessionGiven junk d finc ivc fins ivs claims aadLen

end Verif.Model
