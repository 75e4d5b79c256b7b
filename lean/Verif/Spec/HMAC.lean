import Verif.Spec.SHA256
import Verif.Spec.Encoding

/-!
Independent specification of HMAC-SHA256 (RFC 2104) and of the TLS 1.2 PRF (RFC 5246, section 5), on bit strings.
-/

namespace Verif.Spec.HMAC
open Verif.Spec.SHA256 Verif.Spec.Encoding

/-- The byte `b` repeated 64 times. -/
def padString (b : BitVec 8) : List Bool := bytesBits (List.replicate 64 b)

/-- RFC 2104, section 2: a key longer than the block is hashed first; the key is then filled with zeros to the
block length. -/
def blockKey (key : List Bool) : List Bool :=
  let k := if key.length > 512 then sha256 key else key
  k ++ List.replicate (512 - k.length) false

/-- Bitwise exclusive or. -/
def xorBits (a b : List Bool) : List Bool := List.zipWith Bool.xor a b

/-- RFC 2104: `H(K xor opad, H(K xor ipad, text))`. -/
def hmac (key text : List Bool) : List Bool :=
  sha256 (xorBits (blockKey key) (padString 0x5c) ++ sha256 (xorBits (blockKey key) (padString 0x36) ++ text))

/-- RFC 5246, section 5: `A(0) = seed`, `A(i) = HMAC_hash(secret, A(i-1))`. -/
def A (secret seed : List Bool) : Nat → List Bool
  | 0 => seed
  | i + 1 => hmac secret (A secret seed i)

/-- RFC 5246, section 5: `P_hash(secret, seed) = HMAC_hash(secret, A(1) + seed) + HMAC_hash(secret, A(2) + seed) + ...`,
the first `n` terms. -/
def pHash (secret seed : List Bool) : Nat → List Bool
  | 0 => []
  | n + 1 => pHash secret seed n ++ hmac secret (A secret seed (n + 1) ++ seed)

/-- RFC 5246, section 5: `PRF(secret, label, seed) = P_hash(secret, label + seed)`, truncated to `bitlen` bits;
enough terms are computed. -/
def prf (secret label seed : List Bool) (bitlen : Nat) : List Bool :=
  (pHash secret (label ++ seed) ((bitlen + 255) / 256)).take bitlen

end Verif.Spec.HMAC
