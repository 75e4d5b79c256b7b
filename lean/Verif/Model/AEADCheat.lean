import Verif.Model.AEAD
import Verif.Model.OLECheat

/-! `protocol/aead.h` when the sender of the oblivious linear evaluation does not send the blocks of the code. -/

namespace Verif.Model.AEAD
open Integer

/-- The uses of `OLEF2K::compute` (`ole_f2k.h:26-60`) where the sender sends `cheat` of the blocks of the code. -/
def oleSent (cheat : List Block → List Block) (aliceSends : Bool) (raw0 raw1 : Nat → Block) (inA inB : List Block) : Res (List Block × List Block) := do
  if aliceSends then
    let r ← OLE.f2kComputeSent cheat raw0 raw1 inA inB
    .ok (r.1, r.2.1)
  else
    let r ← OLE.f2kComputeSent cheat raw0 raw1 inB inA
    .ok (r.2.1, r.1)

/-- `AEAD::obv_ghash`, `protocol/aead.h:144-166`, with that sender. -/
def obvGhashSent (cheat : List Block → List Block) (aliceSends : Bool) (raw0 raw1 : Nat → Block) (mulA mulB : List Block) (ins : List Block) :
    Res (Block × Block × List Block × List Block) :=
  match mulA, mulB with
  | hA :: _, hB :: _ => do
    let mulA := extend hA (ins.length - mulA.length) mulA
    let mulB := extend hB (ins.length - mulB.length) mulB
    let (oA, oB) ← oleSent cheat aliceSends raw0 raw1 (List.zipWith mulBlock ins mulA) (mulB.take ins.length)
    .ok (xorAll oA, xorAll oB, mulA, mulB)
  | _, _ => .error (.ub "obv_ghash: mul_hs[0] of an empty vector")

/-- `AEAD::encrypt` of both parties, `protocol/aead.h:169-306`, with that sender. -/
def encryptSent (cheat : List Block → List Block) (aliceSends : Bool) (st : State) (msgA msgB aad iv : List Byte) (secret : Bool) (m : Nat → Bool)
    (raw0 raw1 : Nat → Block) : Res (State × Sealed × Sealed) := do
  let n := msgA.length
  let (st, Z, s, z0A, z0B) ← stream st iv n m
  let (st, cA, cB) ←
    (if secret = false then
      let z := toBytes Z
      .ok ({ st with openZ := st.openZ ++ [z], openLen := st.openLen ++ [n] },
        xorBytes msgA z.reverse, xorBytes msgB z.reverse)
    else do
      let zA ← integerToChars s.1
      let zB ← integerToChars s.2
      let sent := xorBytes msgA zA
      let ctxt := xorBytes sent zB
      .ok ({ st with gcZA := st.gcZA ++ [zA.reverse], gcZB := st.gcZB ++ [zB.reverse], zLen := st.zLen ++ [n],
                     zkZ := st.zkZ ++ [ofBytes zA.reverse] }, ctxt, ctxt) : Res (State × List Byte × List Byte))
  let (oA, oB, mulA, mulB) ← obvGhashSent cheat aliceSends raw0 raw1 st.mulA st.mulB (tagBlocks aad cA)
  let outA := oA ^^^ z0A
  let outB := oB ^^^ z0B
  .ok ({ st with mulA := mulA, mulB := mulB }, ⟨cA, blockToTag (outA ^^^ outB)⟩, ⟨cB, blockToTag (outB ^^^ outA)⟩)

/-- `AEAD::decrypt` of both parties, `protocol/aead.h:309-492`, with that sender, who follows the code otherwise. -/
def decryptSent (cheat : List Block → List Block) (hash : List Byte → List Byte) (aliceSends : Bool) (st : State) (ctxtA ctxtB tagA tagB aad iv : List Byte)
    (secret : Bool) (m : Nat → Bool) (raw0 raw1 : Nat → Block) (rndA rndB : List Byte) :
    Res (State × Opened × Opened) := do
  let n := ctxtA.length
  let (st, Z, s, z0A, z0B) ← stream st iv n m
  let (st, mA, mB) ←
    (if secret = false then
      let z := toBytes Z
      .ok ({ st with openZ := st.openZ ++ [z], openLen := st.openLen ++ [n] },
        some (xorBytes ctxtA z.reverse), some (xorBytes ctxtB z.reverse))
    else do
      let zA ← integerToChars s.1
      let zB ← integerToChars s.2
      .ok ({ st with gcZA := st.gcZA ++ [zA.reverse], gcZB := st.gcZB ++ [zB.reverse], zLen := st.zLen ++ [n],
                     zkZ := st.zkZ ++ [ofBytes zA.reverse] },
        some (xorBytes (xorBytes zB zA) ctxtA), none) : Res (State × Option (List Byte) × Option (List Byte)))
  let (oA, oB, mulA, mulB) ← obvGhashSent cheat aliceSends raw0 raw1 st.mulA st.mulB (tagBlocks aad ctxtA)
  let outA := oA ^^^ z0A
  let outB := oB ^^^ z0B
  let comA := Commitment.commit hash rndA (blockBytes outA)
  let comB := Commitment.commit hash rndB (blockBytes outB)
  .ok ({ st with mulA := mulA, mulB := mulB },
    ⟨mA, finish hash outA comB rndB outB tagA⟩, ⟨mB, finish hash outB comA rndA outA tagB⟩)

/-- The constructor, `protocol/aead.h:47-85`, with that sender; it follows the code in the block it sends after the OLE. -/
def constructSent (cheat : List Block → List Block) (E : Block → Block) (fixedIv : Integer) (aliceSends : Bool) (m : Nat → Bool) (r : Block)
    (raw0 raw1 : Nat → Block) : Res State := do
  let H ← aes E (ofNat 128 0)
  let hA ← integerToBlock (share m H).1
  let hB ← integerToBlock (share m H).2
  let hs := if aliceSends then hA else hB
  let hr := if aliceSends then hB else hA
  let (os, or', _) ← OLE.f2kComputeSent cheat raw0 raw1 [r] [hr]
  let mh := os.getD 0 0 ^^^ mulBlock r hs
  let mulS := [invBlock r]
  let mulR := [or'.getD 0 0 ^^^ mh]
  .ok { E := E, fixedIv := fixedIv, nonce := [], gcHA := hA, gcHB := hB, zkH := ofBytes (blockBytes hA),
        gcZ0A := [], gcZ0B := [], zkZ0 := [], gcZA := [], gcZB := [], zkZ := [], zLen := [], openZ := [], openLen := [],
        mulA := if aliceSends then mulS else mulR, mulB := if aliceSends then mulR else mulS }

/-- One block changed: `e` is added to block number `k`.
Not in the code: a deviation from `backend/ole_f2k.h:36-37`. -/
def xorAt (k : Nat) (e : Block) (l : List Block) : List Block := l.modify k (· ^^^ e)

end Verif.Model.AEAD
