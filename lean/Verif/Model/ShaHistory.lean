import Verif.Model.HMAC

/-! Call histories of `SHA256` and `HMAC_SHA256` objects (the public entry points of `cipher/sha256.h:110,516,522,531`
and `cipher/hmac_sha256.h:24,59,76,105`).  Results are collected as bit strings, most significant bit first. -/

namespace Verif.Model.SHA
open Verif.Model Verif.Model.Integer

/-- Bit string of a secret digest: the words concatenated (`concat`), read most significant bit first.
The array `res` of `cipher/sha256.h:516`, as concatenated in `cipher/hmac_sha256.h:69`. -/
def secBits (dig : List Integer) : List Bool := (concat [] dig).reverse

/-- Bit string of an opened digest: words in order, each most significant bit first.
The array `res` of `cipher/sha256.h:522`. -/
def openBits (dig : List (BitVec 32)) : List Bool := (concat [] (dig.map fun d => ofNat 32 d.toNat)).reverse

/-- A public call on a `SHA256` object (not in the proof phase).
`cipher/sha256.h:110,516,522,531`. -/
inductive ShaOp where
  | refresh
  | digest (x : Integer) (reuse : Bool)
  | optDigest (garbage : List Byte) (sec : Integer) (pub : List Byte) (reuse : Bool)
  | optRounds (x : Integer) (reuse : Bool)

/-- One call, `cipher/sha256.h:110-189,516-537`. -/
def Sha.step (s : Sha) : ShaOp → Res (Option (List Bool) × Sha)
  | .refresh => .ok (none, s.refresh)
  | .digest x r => do let (d, s) ← s.digest x r; .ok (some (secBits d), s)
  | .optDigest g sec pub r => do let (d, s) ← s.optDigest g sec pub r false; .ok (some (openBits d), s)
  | .optRounds x r => do let (d, s) ← s.optRoundsDigest x r; .ok (some (secBits d), s)

/-- A sequence of calls. Not in the code: calls of the members `cipher/sha256.h:110,516,522,531`. -/
def Sha.run (s : Sha) : List ShaOp → Res (List (Option (List Bool)) × Sha)
  | [] => .ok ([], s)
  | op :: ops => do
    let (o, s) ← s.step op
    let (os, s) ← s.run ops
    .ok (o :: os, s)

/-- A public call on an `HMAC_SHA256` object (not in the proof phase).
`cipher/hmac_sha256.h:24,59-124`. -/
inductive HmacOp where
  | init (key : Integer)
  | hmac (msg : Integer)
  | optHmac (garbage : List Byte) (msg : List Byte) (reuseIn reuseOut : Bool)
  | optRounds (msg : Integer) (reuseIn reuseOut : Bool)

/-- One call, `cipher/hmac_sha256.h:24-123`. -/
def Hmac.step (m : Hmac) : HmacOp → Res (Option (List Bool) × Hmac)
  | .init key => do let m ← m.init key; .ok (none, m)
  | .hmac msg => do let (d, m) ← m.hmac msg; .ok (some (secBits d), m)
  | .optHmac g msg ri ro => do let (d, m) ← m.optHmac g msg ri ro false; .ok (some (secBits d), m)
  | .optRounds msg ri ro => do let (d, m) ← m.optRoundsHmac msg ri ro; .ok (some (secBits d), m)

/-- A sequence of calls. Not in the code: calls of the members `cipher/hmac_sha256.h:24,59-124`. -/
def Hmac.run (m : Hmac) : List HmacOp → Res (List (Option (List Bool)) × Hmac)
  | [] => .ok ([], m)
  | op :: ops => do
    let (o, m) ← m.step op
    let (os, m) ← m.run ops
    .ok (o :: os, m)

end Verif.Model.SHA
