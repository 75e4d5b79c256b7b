import Verif.Model.Handshake

/-!
Model of `send_bn` and `recv_bn`, `backend/bn_utils.h:19-40`; `arr` has 1000 bytes (lines 22, 33).  A channel is the list of bytes sent and not yet
received; it delivers in order (emp-tool, external).
-/

namespace Verif.Model.Network
open Integer SHA

/-- The memory image of a `uint32_t` (little-endian). `backend/bn_utils.h:24,35`. -/
def u32 (n : Nat) : List Byte := [BitVec.ofNat 8 n, BitVec.ofNat 8 (n / 256), BitVec.ofNat 8 (n / 65536), BitVec.ofNat 8 (n / 16777216)]

/-- `BN_bin2bn` (OpenSSL): big-endian bytes. `backend/bn_utils.h:39`. -/
def bin2bn (l : List Byte) : Nat := val (ofBytes l.reverse)

/-- `send_bn`, `backend/bn_utils.h:21-28`: the bytes sent and the bytes put into the hash. -/
def sendBn (n : Nat) : Res (List Byte × List Byte) :=
  let arr := bn2bin n
  if arr.length > 1000 then .error (.ub "BN_bn2bin writes past arr[1000]")
  else .ok (u32 arr.length ++ arr, arr)

/-- `recv_bn`, `backend/bn_utils.h:32-40`: the number, the bytes put into the hash and what is left in the channel. -/
def recvBn (s : List Byte) : Res (Nat × List Byte × List Byte) :=
  if s.length < 4 then .error (.error "recv_data blocks")
  else
    let length := val (ofBytes (s.take 4))
    let s := s.drop 4
    if length > 1000 then .error (.ub "recv_data writes past arr[1000]")
    else if s.length < length then .error (.error "recv_data blocks")
    else
      let arr := s.take length
      .ok (bin2bn arr, arr, s.drop length)

/-- `send_bn` in a loop with one hash, e.g. `protocol/com_conv.h:186-187`. -/
def sendBns : List Nat → Res (List Byte × List Byte)
  | [] => .ok ([], [])
  | n :: ns => do
    let (w, h) ← sendBn n
    let (ws, hs) ← sendBns ns
    .ok (w ++ ws, h ++ hs)

/-- `recv_bn` in a loop with one hash, e.g. `protocol/com_conv.h:157-161`. -/
def recvBns : Nat → List Byte → Res (List Nat × List Byte × List Byte)
  | 0, s => .ok ([], [], s)
  | k + 1, s => do
    let (n, h, s) ← recvBn s
    let (ns, hs, s) ← recvBns k s
    .ok (n :: ns, h ++ hs, s)

end Verif.Model.Network
