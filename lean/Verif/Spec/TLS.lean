import Verif.Spec.HMAC

/-! The TLS 1.2 key schedule (RFC 5246 sections 6.3, 7.4.9, 8.1; RFC 7627 section 4), on bit strings. -/

namespace Verif.Spec.TLS
open Verif.Spec.HMAC Verif.Spec.Encoding

/-- ASCII label as a bit string. -/
def ascii (s : String) : List Bool := bytesBits (s.toList.map fun c => BitVec.ofNat 8 c.toNat)

/-- `master_secret = PRF(pre_master_secret, "master secret", ClientHello.random + ServerHello.random)[0..47]` -/
def masterSecret (pms clientRandom serverRandom : List Bool) : List Bool :=
  prf pms (ascii "master secret") (clientRandom ++ serverRandom) (48 * 8)

/-- `master_secret = PRF(pre_master_secret, "extended master secret", session_hash)[0..47]` -/
def extendedMasterSecret (pms sessionHash : List Bool) : List Bool :=
  prf pms (ascii "extended master secret") sessionHash (48 * 8)

/-- `key_block = PRF(master_secret, "key expansion", server_random + client_random)`; AES-128-GCM needs two 16-byte
keys and two 4-byte implicit nonces. -/
def keyBlock (master clientRandom serverRandom : List Bool) : List Bool :=
  prf master (ascii "key expansion") (serverRandom ++ clientRandom) (40 * 8)

/-- Partition of the key block (RFC 5246, 6.3): client key, server key, client IV, server IV. -/
structure Keys where
  clientKey : List Bool
  serverKey : List Bool
  clientIv : List Bool
  serverIv : List Bool

/-- `k` is the partition of the key block `kb`. -/
def IsPartition (k : Keys) (kb : List Bool) : Prop :=
  kb = k.clientKey ++ k.serverKey ++ k.clientIv ++ k.serverIv
    ∧ k.clientKey.length = 128 ∧ k.serverKey.length = 128 ∧ k.clientIv.length = 32 ∧ k.serverIv.length = 32

/-- `verify_data = PRF(master_secret, finished_label, Hash(handshake_messages))[0..11]` -/
def verifyData (master label hash : List Bool) : List Bool := prf master label hash (12 * 8)

end Verif.Spec.TLS
