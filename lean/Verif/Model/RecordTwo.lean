import Verif.Model.AEAD
import Verif.Model.Transcript

/-!
`protocol/aead.h` with parties that pass different nonces and additional data to the calls.

`Verif.Model.AEAD` has one argument for the nonce and one for the additional data.  Here ALICE and BOB each have their own, and each party runs its own branch of the code.
-/

namespace Verif.Model.AEAD
open Integer
open Verif.Model.SHA (Owner ofOwner)

/-- `AEAD::set_nonce`, `protocol/aead.h:121-141`, of both parties.  `encrypt` and `decrypt` call it with the default `ENABLE_ONLINE_OFFLINE = true`
(lines 185, 329), so the variable part is an input of ALICE (line 132). -/
def setNonceTwo (fixedIv : Integer) (ivA ivB : List Byte) : Res Integer :=
  if ivA.length ≠ 8 ∨ ivB.length ≠ 8 then .error (.error "assert(iv_len == 8)")
  else .ok (concat (concat fixedIv [ofOwner .alice (ofBytes ivA.reverse) (ofBytes ivB.reverse)]) [ofNat 32 1])

/-- The key stream part of `encrypt` and `decrypt`, `protocol/aead.h:180-202` and `320-346`, for `nA` resp. `nB` bytes.  With different numbers of bytes the parties garble
and evaluate different circuits, or keep different parts: recorded as an error. -/
def streamTwo (st : State) (ivA ivB : List Byte) (nA nB : Nat) (m : Nat → Bool) :
    Res (State × Integer × (Integer × Integer) × Block × Block) := do
  if nA ≠ nB then .error (.error "the parties run different circuits")
  let nonce ← setNonceTwo st.fixedIv ivA ivB
  let (Z, nonce) ← gctr st.E (1 + ctrLen nA) [] nonce
  let s := share m Z
  let top := fun (x : Integer) => x.drop (x.length - 128)
  let cut := fun (n : Nat) (x : Integer) => (x.take (x.length - 128)).drop (padBits n)
  let z0A ← integerToBlock (top s.1)
  let z0B ← integerToBlock (top s.2)
  .ok ({ st with nonce := nonce, gcZ0A := st.gcZ0A ++ [z0A], gcZ0B := st.gcZ0B ++ [z0B],
                 zkZ0 := st.zkZ0 ++ [ofBytes (blockBytes z0A)] },
       cut nA Z, (cut nA s.1, cut nB s.2), z0A, z0B)

/-- The vector `blks` of a party in `obv_ghash`, `protocol/aead.h:149-156`: ALICE's holds her input, BOB's only his powers. -/
def ghashInput (w : Owner) (ins mul : List Block) : List Block :=
  match w with
  | .alice => List.zipWith mulBlock ins mul
  | .bob => mul.take ins.length

/-- `AEAD::obv_ghash`, `protocol/aead.h:144-166`, where the parties pass `insA` and `insB`.  With different numbers of blocks the calls of the oblivious linear evaluation do not
match: recorded as an error. -/
def obvGhashTwo (aliceSends : Bool) (raw0 raw1 : Nat → Block) (mulA mulB : List Block) (insA insB : List Block) :
    Res (Block × Block × List Block × List Block) :=
  match mulA, mulB with
  | hA :: _, hB :: _ => do
    if insA.length ≠ insB.length then .error (.error "the parties call the OLE with different lengths")
    let mulA := extend hA (insA.length - mulA.length) mulA
    let mulB := extend hB (insB.length - mulB.length) mulB
    let (oA, oB) ← ole aliceSends raw0 raw1 (ghashInput .alice insA mulA) (ghashInput .bob insB mulB)
    .ok (xorAll oA, xorAll oB, mulA, mulB)
  | _, _ => .error (.ub "obv_ghash: mul_hs[0] of an empty vector")

/-- `AEAD::encrypt`, `protocol/aead.h:169-306`, as each party calls it. -/
def encryptTwo (aliceSends : Bool) (st : State) (msgA msgB aadA aadB ivA ivB : List Byte) (secret : Bool) (m : Nat → Bool)
    (raw0 raw1 : Nat → Block) : Res (State × Sealed × Sealed) := do
  let (st, Z, s, z0A, z0B) ← streamTwo st ivA ivB msgA.length msgB.length m
  let (st, cA, cB) ←
    (if secret = false then
      let z := toBytes Z
      -- lines 206-221
      .ok ({ st with openZ := st.openZ ++ [z], openLen := st.openLen ++ [msgA.length] },
        xorBytes msgA z.reverse, xorBytes msgB z.reverse)
    else do
      -- lines 222-257
      let zA ← integerToChars s.1
      let zB ← integerToChars s.2
      let sent := xorBytes msgA zA
      let ctxt := xorBytes sent zB
      .ok ({ st with gcZA := st.gcZA ++ [zA.reverse], gcZB := st.gcZB ++ [zB.reverse], zLen := st.zLen ++ [msgA.length],
                     zkZ := st.zkZ ++ [ofBytes zA.reverse] }, ctxt, ctxt) : Res (State × List Byte × List Byte))
  let (oA, oB, mulA, mulB) ← obvGhashTwo aliceSends raw0 raw1 st.mulA st.mulB (tagBlocks aadA cA) (tagBlocks aadB cB)
  let outA := oA ^^^ z0A
  let outB := oB ^^^ z0B
  -- lines 288-302
  .ok ({ st with mulA := mulA, mulB := mulB }, ⟨cA, blockToTag (outA ^^^ outB)⟩, ⟨cB, blockToTag (outB ^^^ outA)⟩)

/-- `AEAD::decrypt`, `protocol/aead.h:309-492`, as each party calls it. -/
def decryptTwo (hash : List Byte → List Byte) (aliceSends : Bool) (st : State) (ctxtA ctxtB tagA tagB aadA aadB ivA ivB : List Byte)
    (secret : Bool) (m : Nat → Bool) (raw0 raw1 : Nat → Block) (rndA rndB : List Byte) :
    Res (State × Opened × Opened) := do
  let (st, Z, s, z0A, z0B) ← streamTwo st ivA ivB ctxtA.length ctxtB.length m
  let (st, mA, mB) ←
    (if secret = false then
      let z := toBytes Z
      -- lines 351-368
      .ok ({ st with openZ := st.openZ ++ [z], openLen := st.openLen ++ [ctxtA.length] },
        some (xorBytes ctxtA z.reverse), some (xorBytes ctxtB z.reverse))
    else do
      -- lines 369-396
      let zA ← integerToChars s.1
      let zB ← integerToChars s.2
      .ok ({ st with gcZA := st.gcZA ++ [zA.reverse], gcZB := st.gcZB ++ [zB.reverse], zLen := st.zLen ++ [ctxtA.length],
                     zkZ := st.zkZ ++ [ofBytes zA.reverse] },
        some (xorBytes (xorBytes zB zA) ctxtA), none) : Res (State × Option (List Byte) × Option (List Byte)))
  let (oA, oB, mulA, mulB) ← obvGhashTwo aliceSends raw0 raw1 st.mulA st.mulB (tagBlocks aadA ctxtA) (tagBlocks aadB ctxtB)
  let outA := oA ^^^ z0A
  let outB := oB ^^^ z0B
  let comA := Commitment.commit hash rndA (blockBytes outA)
  let comB := Commitment.commit hash rndB (blockBytes outB)
  .ok ({ st with mulA := mulA, mulB := mulB },
    ⟨mA, finish hash outA comB rndB outB tagA⟩, ⟨mB, finish hash outB comA rndA outA tagB⟩)

/-- A call of a record object with what each party passes, and the randomness of the call.
The parameters of `protocol/aead.h:169-179,309-319`. -/
inductive CallTwo where
  | enc (msgA msgB aadA aadB ivA ivB : List Byte) (secret : Bool) (m : Nat → Bool) (raw0 raw1 : Nat → Block)
  | dec (ctxtA ctxtB tagA tagB aadA aadB ivA ivB : List Byte) (secret : Bool) (m : Nat → Bool) (raw0 raw1 : Nat → Block) (rndA rndB : List Byte)

/-- What the parties obtain. `protocol/aead.h:169-179,309-325`. -/
inductive GotTwo where
  | sealed (a b : Sealed)
  | opened (a b : Opened)

/-- One call, `protocol/record.h:13-41` in secret mode and `protocol/handshake.h:328-371` for the finished messages. -/
def CallTwo.step (hash : List Byte → List Byte) (aliceSends : Bool) (st : State) : CallTwo → Res (State × GotTwo)
  | .enc mA mB aA aB iA iB sec m r0 r1 => do
    let (st, a, b) ← encryptTwo aliceSends st mA mB aA aB iA iB sec m r0 r1
    .ok (st, .sealed a b)
  | .dec cA cB tA tB aA aB iA iB sec m r0 r1 rA rB => do
    let (st, a, b) ← decryptTwo hash aliceSends st cA cB tA tB aA aB iA iB sec m r0 r1 rA rB
    .ok (st, .opened a b)

/-- The calls of a record object in a connection.
Not in the code: calls of `protocol/aead.h:169,309`. -/
def runTwo (hash : List Byte → List Byte) (aliceSends : Bool) : State → List CallTwo → Res (State × List GotTwo)
  | st, [] => .ok (st, [])
  | st, c :: l => do
    let (st, g) ← c.step hash aliceSends st
    let (st, gs) ← runTwo hash aliceSends st l
    .ok (st, g :: gs)

end Verif.Model.AEAD
