import Verif.Model.AEAD

/-! `protocol/aead.h`: the messages the parties exchange in `encrypt` and `decrypt` outside the garbled circuit, the OLE and the zero-knowledge
backend, and what each party holds when it sends them.  `Verif.Model.AEAD` has the joint result. -/

namespace Verif.Model.AEAD
open Integer

/-- What a party holds: in secret mode its share of the key stream (`z`, lines 224 and 371), and its share of the tag (`out`, lines 288 and 424).
`protocol/aead.h:224,371,286,425`. -/
structure Held where
  z : List Byte
  out : Block

/-- Messages in order, to ALICE and to BOB. `send_data` in `protocol/aead.h:238-302,387-484`. -/
structure Talk where
  toA : List (List Byte)
  toB : List (List Byte)

/-- The messages of `encrypt`: lines 238-257 (secret mode) and 290-302.
`protocol/aead.h:240-256,288-302`. -/
def encryptTalk (aliceSends : Bool) (st : State) (msgA msgB aad iv : List Byte) (secret : Bool) (m : Nat → Bool)
    (raw0 raw1 : Nat → Block) : Res (Held × Held × Talk) := do
  let n := msgA.length
  let (st, Z, s, z0A, z0B) ← stream st iv n m
  let (zA, zB, cA, toA, toB) ←
    (if secret = false then .ok ([], [], xorBytes msgA (toBytes Z).reverse, [], [])
    else do
      let zA ← integerToChars s.1
      let zB ← integerToChars s.2
      let sent := xorBytes msgA zA
      let ctxt := xorBytes sent zB
      .ok (zA, zB, ctxt, [ctxt], [sent]) : Res (List Byte × List Byte × List Byte × List (List Byte) × List (List Byte)))
  let (oA, oB, _, _) ← obvGhash aliceSends raw0 raw1 st.mulA st.mulB (tagBlocks aad cA)
  let outA := oA ^^^ z0A
  let outB := oB ^^^ z0B
  .ok (⟨zA, outA⟩, ⟨zB, outB⟩, ⟨toA ++ [blockBytes outB], toB ++ [blockBytes outA]⟩)

/-- The messages of `decrypt`: lines 387-395 (secret mode) and 433-484.
`protocol/aead.h:387-395,433-484`. -/
def decryptTalk (hash : List Byte → List Byte) (aliceSends : Bool) (st : State) (ctxtA aad iv : List Byte)
    (secret : Bool) (m : Nat → Bool) (raw0 raw1 : Nat → Block) (rndA rndB : List Byte) : Res (Held × Held × Talk) := do
  let n := ctxtA.length
  let (st, _, s, z0A, z0B) ← stream st iv n m
  let (zA, zB, toA) ←
    (if secret = false then .ok ([], [], [])
    else do
      let zA ← integerToChars s.1
      let zB ← integerToChars s.2
      .ok (zA, zB, [zB]) : Res (List Byte × List Byte × List (List Byte)))
  let (oA, oB, _, _) ← obvGhash aliceSends raw0 raw1 st.mulA st.mulB (tagBlocks aad ctxtA)
  let outA := oA ^^^ z0A
  let outB := oB ^^^ z0B
  .ok (⟨zA, outA⟩, ⟨zB, outB⟩,
    ⟨toA ++ [Commitment.commit hash rndB (blockBytes outB), blockBytes outB, rndB],
     [Commitment.commit hash rndA (blockBytes outA), blockBytes outA, rndA]⟩)

end Verif.Model.AEAD
