import Verif.Model.BlockConv
import Verif.Model.OLE
import Verif.Model.Commitment

/-!
Model of `protocol/aead.h`.

Both parties are modelled together.  A secret `Integer` inside the garbled circuit is its plain value; where
the code reads the least significant bits of the labels, the two parties obtain an xor sharing of the value:
ALICE's share is arbitrary (a parameter of the run) and BOB's share is the xor with the value (labels of the two
parties differ by `b * Delta` and the least significant bit of `Delta` is one).  `E` is the function
`computeAES_KS(expanded_key, ·)`.  `size_t` lengths are natural numbers: byte lengths are below `2^61`.
The channels deliver the messages unchanged and in order.
-/

namespace Verif.Model.AEAD
open Integer

/-- The state of an `AEAD` object on both sides (`A` = ALICE, `B` = BOB), `protocol/aead.h:17-44`.  The queues are
listed front first. -/
structure State where
  /-- `computeAES_KS(expanded_key, ·)` -/
  E : Block → Block
  fixedIv : Integer
  nonce : Integer
  gcHA : Block
  gcHB : Block
  zkH : Integer
  gcZ0A : List Block
  gcZ0B : List Block
  zkZ0 : List Integer
  gcZA : List (List Byte)
  gcZB : List (List Byte)
  zkZ : List Integer
  zLen : List Nat
  openZ : List (List Byte)
  openLen : List Nat
  mulA : List Block
  mulB : List Block

/-- The block held by a 128-bit integer. `integer_to_block`, as in `protocol/aead.h:56,190`. -/
def blk (x : Integer) : Block := BitVec.ofNat 128 (val x)

/-- `computeAES_KS`, `cipher/utils.h:249-255`, as a function of the 128-bit input for a fixed expanded key; any other size makes
the circuit evaluation read out of range. -/
def aes (E : Block → Block) (x : Integer) : Res Integer :=
  if x.length = 128 then .ok (ofNat 128 (E (blk x)).toNat) else .error (.ub "computeAES_KS: input size")

/-- `AEAD::inc`, `protocol/aead.h:94-105`. -/
def inc (counter : Integer) (s : Nat) : Res Integer :=
  if counter.length < s then .error (.error "invalid length s!")
  else .ok (concat (counter.drop s) [add (counter.take s) (ofNat s 1)])

/-- `AEAD::gctr`, `protocol/aead.h:107-116`: result and nonce. -/
def gctr (E : Block → Block) : Nat → Integer → Integer → Res (Integer × Integer)
  | 0, res, nonce => .ok (res, nonce)
  | m + 1, res, nonce => do
    let tmp ← aes E nonce
    let nonce ← inc nonce 32
    gctr E m (concat res [tmp]) nonce

/-- `AEAD::set_nonce`, `protocol/aead.h:121-141`; the variable part is ALICE's (line 132). -/
def setNonce (fixedIv : Integer) (iv : List Byte) : Res Integer :=
  if iv.length ≠ 8 then .error (.error "assert(iv_len == 8)")
  else .ok (concat (concat fixedIv [ofBytes iv.reverse]) [ofNat 32 1])

/-- The least significant label bits of the two parties for the wires of `v`: ALICE's are `m`.
`integer_to_block` and `integer_to_chars`, `cipher/utils.h:257-303`, called in
`protocol/aead.h:56,190,224,371`. -/
def share (m : Nat → Bool) (v : Integer) : Integer × Integer :=
  let a := (List.range v.length).map m
  (a, xor a v)

/-- The `while` loop of `obv_ghash`, `protocol/aead.h:146-147`: `k` more powers. -/
def extend (h : Block) : Nat → List Block → List Block
  | 0, l => l
  | k + 1, l => extend h k (l ++ [mulBlock h (l.getLastD 0)])

/-- The two uses of `OLEF2K::compute`: the party whose `ot->Delta` is not zero is the sender.
`backend/ole_f2k.h:27-60`, called in `protocol/aead.h:67,73,160`. -/
def ole (aliceSends : Bool) (raw0 raw1 : Nat → Block) (inA inB : List Block) : Res (List Block × List Block) := do
  if aliceSends then
    let r ← OLE.f2kCompute raw0 raw1 inA inB
    .ok (r.1, r.2.1)
  else
    let r ← OLE.f2kCompute raw0 raw1 inB inA
    .ok (r.2.1, r.1)

/-- The final loop of `obv_ghash`, `protocol/aead.h:162-165`. -/
def xorAll (l : List Block) : Block := l.foldl (· ^^^ ·) 0

/-- `AEAD::obv_ghash` of both parties, `protocol/aead.h:144-166`, with the extended power lists.  Only ALICE's `in`
is used (lines 150-156). -/
def obvGhash (aliceSends : Bool) (raw0 raw1 : Nat → Block) (mulA mulB : List Block) (ins : List Block) :
    Res (Block × Block × List Block × List Block) :=
  match mulA, mulB with
  | hA :: _, hB :: _ => do
    let mulA := extend hA (ins.length - mulA.length) mulA
    let mulB := extend hB (ins.length - mulB.length) mulB
    let (oA, oB) ← ole aliceSends raw0 raw1 (List.zipWith mulBlock ins mulA) (mulB.take ins.length)
    .ok (xorAll oA, xorAll oB, mulA, mulB)
  | _, _ => .error (.ub "obv_ghash: mul_hs[0] of an empty vector")

/-- The constructor, `protocol/aead.h:47-85`.  `m`: ALICE's label bits of `H`; `r`: the block drawn by the OT sender
(line 63). -/
def construct (E : Block → Block) (fixedIv : Integer) (aliceSends : Bool) (m : Nat → Bool) (r : Block)
    (raw0 raw1 : Nat → Block) : Res State := do
  let H ← aes E (ofNat 128 0)
  let hA ← integerToBlock (share m H).1
  let hB ← integerToBlock (share m H).2
  let hs := if aliceSends then hA else hB
  let hr := if aliceSends then hB else hA
  let (os, or', _) ← OLE.f2kCompute raw0 raw1 [r] [hr]
  let mh := os.getD 0 0 ^^^ mulBlock r hs
  let mulS := [invBlock r]
  let mulR := [or'.getD 0 0 ^^^ mh]
  .ok { E := E, fixedIv := fixedIv, nonce := [], gcHA := hA, gcHB := hB, zkH := ofBytes (blockBytes hA),
        gcZ0A := [], gcZ0B := [], zkZ0 := [], gcZA := [], gcZB := [], zkZ := [], zLen := [], openZ := [], openLen := [],
        mulA := if aliceSends then mulS else mulR, mulB := if aliceSends then mulR else mulS }

/-- Padding bits for `n` bytes, e.g. `protocol/aead.h:181`. -/
def padBits (n : Nat) : Nat := 128 * ((n * 8 + 128 - 1) / 128) - n * 8
/-- Number of counter blocks for `n` bytes, e.g. `protocol/aead.h:183`. -/
def ctrLen (n : Nat) : Nat := (n * 8 + 128 - 1) / 128

/-- Length bytes `ilen`, `mlen`, `protocol/aead.h:266-271`. -/
def lenBytes (n : Nat) : List Byte :=
  (List.range 8).map fun i => ((BitVec.ofNat 64 (8 * n)) >>> ((7 - i) * 8)).setWidth 8

/-- The buffer `x` before it is reversed, `protocol/aead.h:273-278`. -/
def tagBuffer (aad ctxt : List Byte) : List Byte :=
  aad ++ List.replicate (padBits aad.length / 8) 0 ++ ctxt ++ List.replicate (padBits ctxt.length / 8) 0
    ++ lenBytes aad.length ++ lenBytes ctxt.length

/-- `reverse(x, x + len)` and `(block*)x`, `protocol/aead.h:280-284`. -/
def tagBlocks (aad ctxt : List Byte) : List Block :=
  let x := (tagBuffer aad ctxt).reverse
  blocksOfBytes (8 * x.length / 128) x

/-- A block written to 16 bytes and reversed, `protocol/aead.h:304-305`, `486-487`, `528-530`. -/
def blockToTag (b : Block) : List Byte := (blockBytes b).reverse

/-- Byte-wise xor of two buffers of the same length. As in `protocol/aead.h:220-221,242-252`. -/
def xorBytes (a b : List Byte) : List Byte := List.zipWith (· ^^^ ·) a b

/-- The key stream part common to `encrypt` and `decrypt`, `protocol/aead.h:180-202` and `320-346`: the state with the
shares of `z0` stored, the value `Z` after the two erasures, its two shares, the two shares of `z0`. -/
def stream (st : State) (iv : List Byte) (n : Nat) (m : Nat → Bool) :
    Res (State × Integer × (Integer × Integer) × Block × Block) := do
  let nonce ← setNonce st.fixedIv iv
  let (Z, nonce) ← gctr st.E (1 + ctrLen n) [] nonce
  let s := share m Z
  let top := fun (x : Integer) => x.drop (x.length - 128)
  let cut := fun (x : Integer) => (x.take (x.length - 128)).drop (padBits n)
  let z0A ← integerToBlock (top s.1)
  let z0B ← integerToBlock (top s.2)
  .ok ({ st with nonce := nonce, gcZ0A := st.gcZ0A ++ [z0A], gcZ0B := st.gcZ0B ++ [z0B],
                 zkZ0 := st.zkZ0 ++ [ofBytes (blockBytes z0A)] },
       cut Z, (cut s.1, cut s.2), z0A, z0B)

/-- What a party obtains from `encrypt`. `protocol/aead.h:169-179`. -/
structure Sealed where
  ctxt : List Byte
  tag : List Byte

/-- `AEAD::encrypt` of both parties, `protocol/aead.h:169-306`.  `msgA`, `msgB` are the two parties' message buffers
(BOB's is not read in secret mode); `m`, `raw0`, `raw1` is the randomness of the run. -/
def encrypt (aliceSends : Bool) (st : State) (msgA msgB aad iv : List Byte) (secret : Bool) (m : Nat → Bool)
    (raw0 raw1 : Nat → Block) : Res (State × Sealed × Sealed) := do
  let n := msgA.length
  let (st, Z, s, z0A, z0B) ← stream st iv n m
  let (st, cA, cB) ←
    (if secret = false then
      let z := toBytes Z
      -- lines 206-221
      .ok ({ st with openZ := st.openZ ++ [z], openLen := st.openLen ++ [n] },
        xorBytes msgA z.reverse, xorBytes msgB z.reverse)
    else do
      -- lines 222-257
      let zA ← integerToChars s.1
      let zB ← integerToChars s.2
      let sent := xorBytes msgA zA
      let ctxt := xorBytes sent zB
      .ok ({ st with gcZA := st.gcZA ++ [zA.reverse], gcZB := st.gcZB ++ [zB.reverse], zLen := st.zLen ++ [n],
                     zkZ := st.zkZ ++ [ofBytes zA.reverse] }, ctxt, ctxt) : Res (State × List Byte × List Byte))
  let (oA, oB, mulA, mulB) ← obvGhash aliceSends raw0 raw1 st.mulA st.mulB (tagBlocks aad cA)
  let outA := oA ^^^ z0A
  let outB := oB ^^^ z0B
  -- lines 288-302: each party sends its value and xors the one received
  .ok ({ st with mulA := mulA, mulB := mulB }, ⟨cA, blockToTag (outA ^^^ outB)⟩, ⟨cB, blockToTag (outB ^^^ outA)⟩)

/-- What a party obtains from `decrypt`: the message buffer if written, and the returned flag.
`protocol/aead.h:309-325`. -/
structure Opened where
  msg : Option (List Byte)
  ok : Bool
  deriving DecidableEq

/-- The end of `decrypt` for one party, `protocol/aead.h:451-454`, `486-491`: `com`, `rnd`, `other` are what it
received. -/
def finish (hash : List Byte → List Byte) (out : Block) (com rnd : List Byte) (other : Block) (tag : List Byte) : Bool :=
  if Commitment.opens hash com rnd (blockBytes other) then tag.take 16 == blockToTag (out ^^^ other) else false

/-- `AEAD::decrypt` of both parties, `protocol/aead.h:309-492`; `rndA`, `rndB`: the commitment randomness. -/
def decrypt (hash : List Byte → List Byte) (aliceSends : Bool) (st : State) (ctxtA ctxtB tagA tagB aad iv : List Byte)
    (secret : Bool) (m : Nat → Bool) (raw0 raw1 : Nat → Block) (rndA rndB : List Byte) :
    Res (State × Opened × Opened) := do
  let n := ctxtA.length
  let (st, Z, s, z0A, z0B) ← stream st iv n m
  let (st, mA, mB) ←
    (if secret = false then
      let z := toBytes Z
      -- lines 351-368
      .ok ({ st with openZ := st.openZ ++ [z], openLen := st.openLen ++ [n] },
        some (xorBytes ctxtA z.reverse), some (xorBytes ctxtB z.reverse))
    else do
      -- lines 369-396
      let zA ← integerToChars s.1
      let zB ← integerToChars s.2
      .ok ({ st with gcZA := st.gcZA ++ [zA.reverse], gcZB := st.gcZB ++ [zB.reverse], zLen := st.zLen ++ [n],
                     zkZ := st.zkZ ++ [ofBytes zA.reverse] },
        some (xorBytes (xorBytes zB zA) ctxtA), none) : Res (State × Option (List Byte) × Option (List Byte)))
  let (oA, oB, mulA, mulB) ← obvGhash aliceSends raw0 raw1 st.mulA st.mulB (tagBlocks aad ctxtA)
  let outA := oA ^^^ z0A
  let outB := oB ^^^ z0B
  let comA := Commitment.commit hash rndA (blockBytes outA)
  let comB := Commitment.commit hash rndB (blockBytes outB)
  .ok ({ st with mulA := mulA, mulB := mulB },
    ⟨mA, finish hash outA comB rndB outB tagA⟩, ⟨mB, finish hash outB comA rndA outA tagB⟩)

/-- `compute_tag`, `protocol/aead.h:495-531`. -/
def computeTag (h z0 : Block) (ctxt aad : List Byte) : List Byte :=
  blockToTag (ghash h (tagBlocks aad ctxt).reverse ^^^ z0)

/-- `compare_tag`, `protocol/aead.h:533-546`. -/
def compareTag (tag : List Byte) (h z0 : Block) (ctxt aad : List Byte) : Bool :=
  tag.take 16 == computeTag h z0 ctxt aad

end Verif.Model.AEAD
