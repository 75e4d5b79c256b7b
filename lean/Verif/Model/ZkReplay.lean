import Verif.Model.PRF

/-! The proof phase of the key derivation: `opt_compute` with `zk_flag = true` and the final checks,
`cipher/sha256.h:293-316,542-550`, `cipher/hmac_sha256.h:76-102`, `cipher/prf.h:86-125,226-231`,
`protocol/handshake.h:528-531`. -/

namespace Verif.Model.SHA
open Verif.Model Verif.Model.Integer

/-- `Integer(32 * n, data, PUBLIC)` for a `uint32_t` array on a little-endian machine: word 0 in the low bits,
`backend/check_zero.h:55`. -/
def wordsInt (ws : List (BitVec 32)) : Integer := ws.flatMap fun w => ofNat 32 w.toNat

/-- `check_zero(input, data, len, party)` with honest MACs: passes iff the lengths agree and `input ^ data` is zero,
`backend/check_zero.h:36-57`. -/
def checkZeroWords (input : Integer) (data : List (BitVec 32)) : Res Bool :=
  if input.length ≠ 32 * data.length then .error (.error "inconsistent length!") else .ok (input == wordsInt data)

/-- `sha256_check`, `cipher/sha256.h:542-550`: conjunction of the `check_zero` calls; `zk_iv_in_hashes[i]` is read for
every opened hash. -/
def Sha.check (s : Sha) : Res Bool :=
  (List.range s.ivIn.length).foldlM (fun ok i =>
    match s.zkIvIn[i]?, s.ivIn[i]? with
    | some z, some w => do
      let b ← checkZeroWords z w.reverse
      .ok (ok && b)
    | _, _ => .error (.ub "sha256_check: zk_iv_in_hashes[i] out of range")) true

/-- `prf_check`, `cipher/prf.h:226-231`. -/
def Prf.check (p : Prf) : Res Bool := do
  let pairs ← p.checkPairs
  pairs.foldlM (fun ok q => do
    let b ← checkZeroWords q.1 q.2
    .ok (ok && b)) true

/-- `handshake_check`, `protocol/handshake.h:528-531`. -/
def handshakeCheck (p : Prf) (m : Hmac) : Res Bool := do
  let a ← p.check
  let b ← m.sha.check
  .ok (a && b)

/-- One call of the proof phase: as `Prf.step`, with `zk_flag = true`, `protocol/handshake.h:373-516`. -/
def Prf.stepZk (p : Prf) (m : Hmac) : PrfOp → Res (Option (List Bool) × Prf × Hmac)
  | .optCompute g b l s ri ro => do let (r, p, m) ← p.optCompute m g [] b l s ri ro true; .ok (some r.reverse, p, m)
  | op => p.step m op

/-- A sequence of calls of the proof phase.
Not in the code: calls of the members `cipher/prf.h:184,204` with `zk_flag`. -/
def Prf.runZk (p : Prf) (m : Hmac) : List PrfOp → Res (List (Option (List Bool)) × Prf × Hmac)
  | [] => .ok ([], p, m)
  | op :: ops => do
    let (o, p, m) ← p.stepZk m op
    let (os, p, m) ← p.runZk m ops
    .ok (o :: os, p, m)

/-- `opt_hmac_sha256` where ALICE feeds `feed dig` instead of the opened inner digest `dig` at line 94,
`cipher/hmac_sha256.h:76-102`. -/
def Hmac.optHmacFeed (m : Hmac) (garbage : List Byte) (msg : List Byte) (reuseIn reuseOut zk : Bool)
    (feed : List (BitVec 32) → List (BitVec 32)) : Res (List Integer × Hmac) := do
  let (dig, sha) ← m.sha.optDigest garbage m.iKeyPad msg reuseIn zk
  let oMsg := concat m.oKeyPad ((feed dig).map fun d => ofNat 32 d.toNat)
  let (res, sha) ← sha.digest oMsg reuseOut
  .ok (res, { m with sha := sha, shaCalls := m.shaCalls + 2 })

end Verif.Model.SHA
