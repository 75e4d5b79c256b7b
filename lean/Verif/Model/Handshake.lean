import Verif.Model.PRF

/-! `protocol/addmod.h` and the key schedule of `protocol/handshake.h`. -/

namespace Verif.Model
open Integer

/-- `addmod(Integer&, const Integer&, const Integer&, Integer&)`, `protocol/addmod.h:10-26`.  Returns the result and
the modified `Q` (two zero bits appended to the caller's object). -/
def addmodQ (a b Q : Integer) : Integer × Integer :=
  let aa := a ++ [false]
  let bb := b ++ [false]
  let c := add aa bb
  let c := c ++ [false]
  let Q := Q ++ [false] ++ [false]
  let sel := geq c Q
  let res := select c sel (sub c Q)
  (res.dropLast.dropLast, Q)

/-- `BN_bn2bin` (OpenSSL): minimal big-endian bytes of a nonnegative number.
As in `protocol/handshake.h:192-197`, `backend/bn_utils.h:23`. -/
def bn2bin (n : Nat) : List Byte :=
  if h : n = 0 then [] else bn2bin (n / 256) ++ [BitVec.ofNat 8 n]
termination_by n
decreasing_by omega

/-- `BN_num_bytes` (OpenSSL). As in `protocol/handshake.h:192-197`. -/
def bnNumBytes (n : Nat) : Nat := (bn2bin n).length

/-- `addmod(Integer&, const Integer&, const Integer&, BIGNUM*)`, `protocol/addmod.h:29-39`. -/
def addmod (a b : Integer) (q : Nat) : Integer :=
  (addmodQ a b (ofBytes (bn2bin q).reverse)).1

/-- The buffer of `compute_master_key`, `protocol/handshake.h:192-198`: `n` as `len` big-endian bytes, reversed.
If `n` needs more than `len` bytes the offset `len - pms_len` wraps and the write is out of bounds. -/
def bnBuffer (len n : Nat) : Res (List Byte) :=
  if bnNumBytes n ≤ len then .ok (List.replicate (len - bnNumBytes n) 0 ++ bn2bin n).reverse
  else .error (.ub "BN_bn2bin(pms, buf + (len - pms_len)): pms longer than the modulus")

/-- String literal as bytes. `protocol/handshake.h:15-19`. -/
def chars (s : String) : List Byte := s.toList.map fun c => BitVec.ofNat 8 c.toNat

/-- Labels, `protocol/handshake.h:15-19` (`sizeof - 1` drops the terminator). -/
def masterKeyLabel : List Byte := chars "master secret"
/-- `protocol/handshake.h:16,22`. -/
def keyExpansionLabel : List Byte := chars "key expansion"
/-- `protocol/handshake.h:17,23`. -/
def clientFinishedLabel : List Byte := chars "client finished"
/-- `protocol/handshake.h:18,24`. -/
def serverFinishedLabel : List Byte := chars "server finished"
/-- `protocol/handshake.h:19,25`. -/
def extendedMasterKeyLabel : List Byte := chars "extended master secret"

/-- Lengths in bytes, `protocol/handshake.h:27-33`. -/
def masterKeyLength : Nat := 384 / 8
/-- `protocol/handshake.h:28`. -/
def expansionKeyLength : Nat := 320 / 8
/-- `protocol/handshake.h:29`. -/
def finishedMsgLength : Nat := 96 / 8
/-- `protocol/handshake.h:31`. -/
def ivLength : Nat := 4
/-- `protocol/handshake.h:32`. -/
def keyLength : Nat := 128 / 8
/-- `protocol/handshake.h:33`. -/
def extendedMasterKeyLength : Nat := 384 / 8

open SHA

/-- Members of `HandShake` used by the key schedule, `protocol/handshake.h:44-77`.  The two parties' secret values
are taken together: an `Integer` is the shared value. -/
structure Hs where
  hmac : Hmac
  prf : Prf
  q : Nat
  zkPms : Integer
  masterKey : Integer
  clientWriteKey : Integer
  serverWriteKey : Integer
  clientWriteIv : Integer
  serverWriteIv : Integer
  clientUfin : List Byte
  serverUfin : List Byte
  roundsOpt : Bool

/-- Constructor, `protocol/handshake.h:78-99` (the finished buffers are uninitialised arrays of 12 bytes). -/
def Hs.new (q : Nat) (roundsOpt : Bool) (ufin0 ufin1 : List Byte) : Hs :=
  { hmac := Hmac.new, prf := Prf.new, q := q, zkPms := [], masterKey := [], clientWriteKey := [], serverWriteKey := [],
    clientWriteIv := [], serverWriteIv := [], clientUfin := ufin0, serverUfin := ufin1, roundsOpt := roundsOpt }

/-- The call `prf.opt_compute(…, true, true)` or `prf.opt_rounds_compute(…, true, true)`, depending on
`ENABLE_ROUNDS_OPT`, `protocol/handshake.h:219-226,257-264,280-288,303-310,319-326`; `res` is the object written to. -/
def Hs.prfCall (h : Hs) (g : Nat → List Byte) (res : Integer) (bitlen : Nat) (label seed : List Byte) :
    Res (Integer × Hs) := do
  let (r, p, m) ← if !h.roundsOpt then h.prf.optCompute h.hmac g res bitlen label seed true true false
    else h.prf.optRoundsCompute h.hmac res bitlen label seed true true
  .ok (r, { h with prf := p, hmac := m })

/-- The common first part of `compute_master_key` and `compute_extended_master_key`,
`protocol/handshake.h:192-211,235-254`: input the shares, add them, key the PRF.  `pmsA`, `pmsB` are the shares
the two parties pass. -/
def Hs.keyFromShares (h : Hs) (pmsA pmsB : Nat) : Res Hs := do
  let len := bnNumBytes h.q
  let bufA ← bnBuffer len pmsA
  let bufB ← bnBuffer len pmsB
  let pmsbits := addmod (ofBytes bufA) (ofBytes bufB) h.q
  let (p, m) ← h.prf.init h.hmac pmsbits
  .ok { h with zkPms := ofBytes bufA, prf := p, hmac := m }

/-- `compute_master_key`, `protocol/handshake.h:187-228`.  The member `master_key` is passed as `res` without being
cleared. -/
def Hs.computeMasterKey (h : Hs) (g : Nat → List Byte) (pmsA pmsB : Nat) (rc rs : List Byte) : Res Hs := do
  let h ← h.keyFromShares pmsA pmsB
  let (r, h) ← h.prfCall g h.masterKey (masterKeyLength * 8) masterKeyLabel (rc ++ rs)
  .ok { h with masterKey := r }

/-- `compute_extended_master_key`, `protocol/handshake.h:231-266`. -/
def Hs.computeExtendedMasterKey (h : Hs) (g : Nat → List Byte) (pmsA pmsB : Nat) (sessionHash : List Byte) : Res Hs := do
  let h ← h.keyFromShares pmsA pmsB
  let (r, h) ← h.prfCall g h.masterKey (extendedMasterKeyLength * 8) extendedMasterKeyLabel sessionHash
  .ok { h with masterKey := r }

/-- `compute_expansion_keys`, `protocol/handshake.h:268-296`. -/
def Hs.computeExpansionKeys (h : Hs) (g : Nat → List Byte) (rc rs : List Byte) : Res Hs := do
  let (p, m) ← h.prf.init h.hmac h.masterKey
  let h := { h with prf := p, hmac := m }
  let (key, h) ← h.prfCall g [] (expansionKeyLength * 8) keyExpansionLabel (rs ++ rc)
  let cwk ← extractInteger key 0 (keyLength * 8)
  let swk ← extractInteger key (keyLength * 8) (keyLength * 8)
  let civ ← extractInteger key (keyLength * 8 * 2) (ivLength * 8)
  let siv ← extractInteger key (keyLength * 8 * 2 + ivLength * 8) (ivLength * 8)
  .ok { h with clientWriteKey := cwk, serverWriteKey := swk, clientWriteIv := civ, serverWriteIv := siv }

/-- `compute_client_finished_msg`, `protocol/handshake.h:298-311`. -/
def Hs.computeClientFinished (h : Hs) (g : Nat → List Byte) (label tau : List Byte) : Res Hs := do
  let (r, h) ← h.prfCall g [] (finishedMsgLength * 8) label tau
  .ok { h with clientUfin := toBytes r }

/-- `compute_server_finished_msg`, `protocol/handshake.h:313-327`. -/
def Hs.computeServerFinished (h : Hs) (g : Nat → List Byte) (label tau : List Byte) : Res Hs := do
  let (r, h) ← h.prfCall g [] (finishedMsgLength * 8) label tau
  .ok { h with serverUfin := toBytes r }

/-- The decision of `decrypt_and_check_server_finished_msg`, `protocol/handshake.h:355-371`, given the outcome
(accepted, plaintext) of `AEAD::decrypt`. -/
def Hs.checkServerFinished (h : Hs) (aead : Bool × List Byte) : Bool :=
  aead.1 && (aead.2.take finishedMsgLength == h.serverUfin.take finishedMsgLength)

end Verif.Model
