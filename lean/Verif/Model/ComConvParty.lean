import Verif.Model.ComConv

/-!
The two parties of `protocol/com_conv.h` taken apart: each is a function of what it receives, so that the other one may
send anything.  `Props/ComConvParty.lean` shows that the joint run of `Model/ComConv.lean` is the composition of the two.

The key and the MAC of the mask `r` (`mask_key`, `mask_mac`, lines 255-270) are arguments; `compute_com_send` and
`compute_com_recv` get them from the OLE (C21, `Env.mask`).  Numbers received outside the hash are their values.
-/

namespace Verif.Model.ComConv
open Integer SHA Network

/-- What `compute_com_send` receives, in this order: `protocol/com_conv.h:343`, `350`, `391`, `398`, `399`, `409`, `412`. -/
structure FromRecv where
  /-- one buffer for each chunk -/
  points : List (List Byte)
  pointR : List Byte
  yCom : List Byte
  rndY : Int
  msgY : Int
  ySeed : Block
  yMAC : Int

/-- What `compute_com_recv` receives, in this order: `protocol/com_conv.h:146`, `160`, `218`, `219`, `220`. -/
structure FromSend where
  com : List Byte
  /-- the bytes of the numbers received by `recv_bn`, without their lengths -/
  msgs : List (List Byte)
  seed : Block
  bDelta : Block
  aDelta : Nat

/-- The result of `compute_com_send`: what it sends, the array `com`, the coefficients it used, and the return value.
`protocol/com_conv.h:282-431`. -/
structure SendOut (G : Type) where
  sent : FromSend
  coms : List G
  chi : List Int
  ok : Bool

/-- The result of `compute_com_recv`: what it sends, the array `com`, the coefficients it used, and the return value.
`protocol/com_conv.h:433-587`. -/
structure RecvOut (G : Type) where
  sent : FromRecv
  coms : List G
  chi : List Int
  ok : Bool

variable {G : Type} [AddCommGroup G]

/-- `chi_hash` and `gen_chi`, `protocol/com_conv.h:144`, `147`, `163`, `190`, `344`, `351`, `360-364`, `272-280` (receiver: `511`,
`517`, `531-536`): the coefficients of `n` chunks. -/
def Env.coefs (E : Env G) (com msgCom : List Byte) (points : List (List Byte)) (pointR : List Byte) (n : Nat) : List Int :=
  (List.range n).map (E.chi (E.hash (com ++ msgCom ++ points.flatten ++ pointR)))

/-- `compute_com_send`, `protocol/com_conv.h:282-431`.  The number of buffers read is the number of chunks (line 342); with fewer
the call blocks.  The opening of line 405 is sent whatever the check of line 403 says. -/
def Env.sendSide [DecidableEq G] (E : Env G) (bDelta seed : Block) (aDelta : Nat) (rKEY : Int) (keys : List Block) (bs : Nat)
    (m : FromRecv) : Res (SendOut G) := do
  batchCheck E.q bs
  let com := E.computeHash seed bDelta aDelta
  let (aKEYs, msgs) := E.convert bDelta aDelta keys
  let msgCom := E.hash (msgBytes msgs)
  let batchK ← (chunks bs aKEYs).mapM E.chunkSum
  if m.points.length ≠ batchK.length then .error (.error "recv_data blocks") else
  let coms := m.points.map fun c => (E.dec c).getD 0
  let comr := (E.dec m.pointR).getD 0
  let chi := E.coefs com msgCom m.points m.pointR batchK.length
  let yKEY := E.linearKey rKEY chi batchK
  let comY := linearCombCom (coms ++ [comr]) (chi ++ [1])
  let ok := E.openCheck comY m.rndY m.msgY
    && m.yCom == E.hash (blockBytes m.ySeed ++ bn2bin m.yMAC.toNat)
    && m.yMAC == (yKEY + (m.msgY * aDelta) % E.q) % E.q
  .ok ⟨⟨com, msgs.map fun x => bn2bin x.toNat, seed, bDelta, aDelta⟩, coms, chi, ok⟩

/-- `compute_com_recv`, `protocol/com_conv.h:433-587`.  The messages of lines 583-584 are sent whatever `open` (line 581) says. -/
def Env.recvSide [DecidableEq G] (E : Env G) (macs : List Block) (bs : Nat) (rMAC : Int) (r : Nat) (rnds : List Int)
    (rndR : Int) (ySeed : Block) (m : FromSend) : Res (RecvOut G) := do
  batchCheck E.q bs
  if m.msgs.length ≠ macs.length then .error (.error "recv_data blocks") else
  if m.msgs.any (fun l => 1000 < l.length) then .error (.ub "recv_data writes past arr[1000]") else
  let msgCom := E.hash m.msgs.flatten
  let aMACs := E.convertRecv macs (m.msgs.map fun l => (bin2bn l : Int))
  let batchM ← (chunks bs aMACs).mapM E.chunkSum
  let msg ← (chunks bs (macs.map fun m => m.getLsbD 0)).mapM E.chunkMsg
  let coms := List.zipWith (fun m rnd => E.mul m rnd) msg rnds
  let comr := E.mul r rndR
  let points := coms.map E.enc
  let chi := E.coefs m.com msgCom points (E.enc comr) msg.length
  let yMAC := E.linearKey rMAC chi batchM
  let rndY := E.linearCombRand (rnds ++ [rndR]) (chi ++ [1])
  let msgY := E.linearCombRand (msg ++ [(r : Int)]) (chi ++ [1])
  let yCom := E.hash (blockBytes ySeed ++ bn2bin yMAC.toNat)
  let ok := E.openRecv m.com msgCom m.seed m.bDelta m.aDelta macs
  .ok ⟨⟨points, E.enc comr, yCom, rndY, msgY, ySeed, yMAC⟩, coms, chi, ok⟩

end Verif.Model.ComConv
