import Verif.Model.SHA256

/-! Model of `cipher/hmac_sha256.h`, class `HMAC_SHA256` (derived from `SHA256`). -/

namespace Verif.Model.SHA
open Verif.Model Verif.Model.Integer

/-- State of an `HMAC_SHA256` object, `cipher/hmac_sha256.h:15-22`. -/
structure Hmac where
  sha : Sha := {}
  shaCalls : Nat := 0
  oKeyPad : Integer := []
  iKeyPad : Integer := []

/-- A freshly constructed object, `cipher/hmac_sha256.h:18`. -/
def Hmac.new : Hmac := {}

/-- The loop building the pad constants, `cipher/hmac_sha256.h:46-54`. -/
def padConst (b : Nat) : Integer :=
  (List.range (512 / 8 - 1)).foldl (fun p _ => xor (shl p 8) (ofNat 512 b)) (ofNat 512 b)

/-- `init`, `cipher/hmac_sha256.h:24-57`. -/
def Hmac.init (m : Hmac) (key : Integer) : Res Hmac := do
  let sha := m.sha.refresh
  let (padKey, sha, calls) ←
    (if key.length > 512 then do
      let (tmp, sha) ← sha.digest key
      .ok (concat (concat [] tmp) [ofNat (512 - 8 * 32) 0], sha, 1)
    else
      .ok (concat key [ofNat (512 - key.length) 0], sha, 0) : Res (Integer × Sha × Nat))
  .ok { sha := sha, shaCalls := calls, oKeyPad := xor padKey (padConst 0x5c), iKeyPad := xor padKey (padConst 0x36) }

/-- `hmac_sha256`, `cipher/hmac_sha256.h:59-74`. -/
def Hmac.hmac (m : Hmac) (msg : Integer) : Res (List Integer × Hmac) := do
  let iMsg := concat m.iKeyPad [msg]
  let (tmpDig, sha) ← m.sha.digest iMsg
  let oMsg := concat m.oKeyPad tmpDig
  let (res, sha) ← sha.digest oMsg
  .ok (res, { m with sha := sha, shaCalls := m.shaCalls + 2 })

/-- `opt_hmac_sha256`, `cipher/hmac_sha256.h:76-102`.  The opened inner digest is fed back as an input of ALICE
(line 94); with an honest ALICE this is the opened value. -/
def Hmac.optHmac (m : Hmac) (garbage : List Byte) (msg : List Byte) (reuseIn reuseOut zk : Bool) :
    Res (List Integer × Hmac) := do
  let (dig, sha) ← m.sha.optDigest garbage m.iKeyPad msg reuseIn zk
  let oMsg := concat m.oKeyPad (dig.map fun d => ofNat 32 d.toNat)
  let (res, sha) ← sha.digest oMsg reuseOut
  .ok (res, { m with sha := sha, shaCalls := m.shaCalls + 2 })

/-- `opt_rounds_hmac_sha256`, `cipher/hmac_sha256.h:105-123`. -/
def Hmac.optRoundsHmac (m : Hmac) (msg : Integer) (reuseIn reuseOut : Bool) : Res (List Integer × Hmac) := do
  let iMsg := concat m.iKeyPad [msg]
  let (tmpDig, sha) ← m.sha.optRoundsDigest iMsg reuseIn
  let oMsg := concat m.oKeyPad tmpDig
  let (res, sha) ← sha.digest oMsg reuseOut
  .ok (res, { m with sha := sha, shaCalls := m.shaCalls + 2 })

end Verif.Model.SHA
