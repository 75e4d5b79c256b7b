import Verif.Model.HandshakeProof
import Verif.Model.SessionGiven

/-!
The handshake with an ALICE who inputs other inner digests than those computed (`cipher/hmac_sha256.h:94`), without the round optimisation.
-/

namespace Verif.Model.SHA
open Verif.Model Verif.Model.Integer

/-- Loop of `opt_phash`, `cipher/prf.h:86-125`, where ALICE inputs `feed i dig` instead of the inner digest `dig` in the `i`-th last call of
`opt_hmac_sha256` (`cipher/hmac_sha256.h:94`). -/
def optPhashFeed (feed : Nat → List (BitVec 32) → List (BitVec 32)) (g : Nat → List Byte) (seed : List Byte) (ri ro zk : Bool) :
    Nat → Prf → Hmac → List Byte → Integer → Res (Integer × Prf × Hmac)
  | 0, p, m, _, res => .ok (res, p, m)
  | n + 1, p, m, a, res => do
    let (tmp, m) ← m.optHmacFeed (g (2 * n + 1)) a ri ro zk (feed (2 * n + 1))
    let (tmpd, p) ← (if !zk then
        let tmpd := revealWords tmp
        .ok (tmpd, { p with calls := p.calls + 1, pubM := p.pubM ++ [tmpd] })
      else
        match p.pubM[p.zkPos]? with
        | some tmpd => .ok (tmpd, { p with calls := p.calls + 1, zkSecM := p.zkSecM ++ [reverseConcat [] tmp],
                                           zkPos := p.zkPos + 1 })
        | none => .error (.ub "opt_phash: pub_M[zk_pos] out of range") : Res (List (BitVec 32) × Prf))
    let a := tmpd.flatMap wordBytes
    let (tmp, m) ← m.optHmacFeed (g (2 * n)) (a ++ seed) ri ro zk (feed (2 * n))
    optPhashFeed feed g seed ri ro zk n { p with calls := p.calls + 1 } m a (concat res tmp)

/-- `opt_compute`, `cipher/prf.h:184-202`, with such an ALICE. -/
def Prf.optComputeFeed (p : Prf) (m : Hmac) (feed : Nat → List (BitVec 32) → List (BitVec 32)) (g : Nat → List Byte) (res : Integer) (bitlen : Nat)
    (label seed : List Byte) (ri ro zk : Bool) : Res (Integer × Prf × Hmac) := do
  let (res, p, m) ← optPhashFeed feed g (label ++ seed) ri ro zk (prfBlocks bitlen) p m (label ++ seed) res
  .ok (prfTrunc res bitlen, p, m)

end Verif.Model.SHA

namespace Verif.Model
open Integer SHA AEADProof

/-- `compute_server_finished_msg` without the round optimisation, `protocol/handshake.h:313-327`, with such an ALICE. -/
def Hs.serverFinishedFeed (h : Hs) (feed : Nat → List (BitVec 32) → List (BitVec 32)) (g : Nat → List Byte) (label tau : List Byte) : Res Hs := do
  let (r, p, m) ← h.prf.optComputeFeed h.hmac feed g [] (finishedMsgLength * 8) label tau true true false
  .ok { h with prf := p, hmac := m, serverUfin := toBytes r }

/-- `prove_server_finished_msg` without the round optimisation, `protocol/handshake.h:500-516`, with such an ALICE. -/
def HsP.proveServerFinishedFeed (h : HsP) (feed : Nat → List (BitVec 32) → List (BitVec 32)) (g : Nat → List Byte) (label tau : List Byte) :
    Res (Check × HsP) := do
  let (ufin, p, m) ← h.hs.prf.optComputeFeed h.hs.hmac feed g [] (finishedMsgLength * 8) label tau true true true
  let c ← checkData ufin h.hs.serverUfin finishedMsgLength
  .ok (c, { h with hs := { h.hs with prf := p, hmac := m } })

/-- The calls of the handshake before `compute_server_finished_msg`, `test/protocol.cpp:79-87`. -/
def Hs.before (h : Hs) (g : Nat → List Byte) (a b : Nat) (k : MasterSeed) (rc rs tauC : List Byte) : Res Hs := do
  let h ← h.computeMaster g a b k rc rs
  let h ← h.computeExpansionKeys g rc rs
  h.computeClientFinished g clientFinishedLabel tauC

/-- What both parties have seen opened: the states after the inner key blocks (`iv_in_hashes`, `cipher/sha256.h:275-283`) and the values `A(i)` (`pub_M`,
`cipher/prf.h:97-104`), in the order of the calls. -/
structure Seen where
  states : List (List (BitVec 32))
  values : List (List (BitVec 32))

/-- The opened values that the objects keep. `cipher/sha256.h:36`, `cipher/prf.h:19`. -/
def Hs.seen (h : Hs) : Seen := ⟨h.hmac.sha.ivIn, h.prf.pubM⟩

/-- What the cheating ALICE inputs in `compute_server_finished_msg`: the inner digests of the two calls of HMAC that gave the blocks of the key expansion, which anyone
can compute from the opened state and the opened `A(1)`, `A(2)` of the key expansion.
In place of `cipher/hmac_sha256.h:94`. -/
def wrongDigests (s : Seen) (rc rs : List Byte) (i : Nat) : List (BitVec 32) :=
  let a := s.values.getD (s.values.length - (if i = 1 then 3 else 2)) []
  plainTail (List.replicate 64 0) (s.states.getLastD []) (a.flatMap wordBytes ++ (keyExpansionLabel ++ (rs ++ rc)))

/-- What she then reads off the opened values: the last `A(i)` and the "finished" value of the server (`server_ufin`, stored least significant byte first).
Not in the code: from `pub_M` of `cipher/prf.h:19` and `server_ufin` of
`protocol/handshake.h:313-326`. -/
def readKeys (s : Seen) (ufin : List Byte) : List Byte × List Byte × List Byte × List Byte :=
  let t := (s.values.getLastD []).flatMap wordBytes
  (t.take 16, t.drop 16, ufin.reverse.take 4, (ufin.reverse.drop 4).take 4)

/-- The handshake with the cheating ALICE: all calls but the last as in `Hs.schedule`.
`protocol/handshake.h:187-326`. -/
def Hs.scheduleCheat (h : Hs) (g : Nat → List Byte) (a b : Nat) (k : MasterSeed) (rc rs tauC tauS : List Byte) : Res Hs := do
  let h ← h.before g a b k rc rs tauC
  h.serverFinishedFeed (fun i _ => wrongDigests h.seen rc rs i) g serverFinishedLabel tauS

/-- The derivation of the proof phase, `protocol/post_record.h:84-97`, where ALICE inputs the given inner digests in `prove_server_finished_msg`. -/
def HsP.proveScheduleFeed (h : HsP) (feed : Nat → List (BitVec 32) → List (BitVec 32)) (g : Nat → List Byte) (ms : Integer) (pms : Nat) (k : MasterSeed)
    (rc rs tauC tauS : List Byte) : Res Session.Derived := do
  let (ms, h) ← h.proveMaster g ms pms k rc rs
  let (ks, h) ← h.proveExpansionKeys g ms rc rs
  let (cc, h) ← h.proveClientFinished g clientFinishedLabel tauC
  let (cs, h) ← h.proveServerFinishedFeed feed g serverFinishedLabel tauS
  .ok (ms, ks, cc, cs, h)

/-- The inner digests of the proof phase: the opened values are those of `Hs.seen` and the one of the last call.
In place of `cipher/hmac_sha256.h:94`, in the proof phase. -/
def wrongAgain (s : Seen) (rc rs : List Byte) (i : Nat) : List (BitVec 32) := wrongDigests ⟨s.states, s.values.dropLast⟩ rc rs i

end Verif.Model
