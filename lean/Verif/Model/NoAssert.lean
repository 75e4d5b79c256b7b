import Verif.Model.AEADProof
import Verif.Model.AESProver
import Verif.Model.SHA256

/-!
The functions of the repository that contain an `assert`, for both kinds of build.

`assert` is removed by the preprocessor if `NDEBUG` is defined.  `CMakeLists.txt` does not set a build type (it includes `cmake/emp-base.cmake` of emp-tool, lines 7 and 24, which is not in
the repository).  The other models take the assertions as active; here the build is a parameter, and the code behind an assertion is followed where the assertion does not stop it.
Reading past the end of a vector, a buffer or an empty queue is undefined behaviour.
-/

namespace Verif.Model.NoAssert
open Integer AEAD

/-- Whether `NDEBUG` is defined.
For the assertions of `protocol/aead_izk.h:146,153` and the others. -/
inductive Build where
  | checked
  | ndebug
  deriving DecidableEq

/-- `assert(p)`. As in `protocol/aead_izk.h:146,153`. -/
def check (b : Build) (p : Prop) [Decidable p] (what : String) : Res Unit :=
  match b with
  | .checked => if p then .ok () else .error (.error what)
  | .ndebug => .ok ()

/-! ### Nonces and records -/

/-- `set_nonce`, `protocol/aead.h:121-141` (same text in `protocol/aead_izk.h:104-119` and `protocol/prove_aes.h:126-141`): all `iv_len` bytes are copied and reversed, the
constructor of `Integer` reads eight of them. -/
def setNonce (b : Build) (fixedIv : Integer) (iv : List Byte) : Res Integer := do
  check b (iv.length = 8) "assert(iv_len == 8)"
  if iv.length < 8 then .error (.ub "Integer(64, riv): read past the end of riv")
  else .ok (concat (concat fixedIv [ofBytes (iv.reverse.take 8)]) [ofNat 32 1])

/-- The key stream part of `encrypt` and `decrypt`, `protocol/aead.h:180-202` and `320-346`. -/
def stream (b : Build) (st : State) (iv : List Byte) (n : Nat) (m : Nat → Bool) :
    Res (State × Integer × (Integer × Integer) × Block × Block) := do
  let nonce ← setNonce b st.fixedIv iv
  let (Z, nonce) ← gctr st.E (1 + ctrLen n) [] nonce
  let s := share m Z
  let top := fun (x : Integer) => x.drop (x.length - 128)
  let cut := fun (x : Integer) => (x.take (x.length - 128)).drop (padBits n)
  let z0A ← integerToBlock (top s.1)
  let z0B ← integerToBlock (top s.2)
  .ok ({ st with nonce := nonce, gcZ0A := st.gcZ0A ++ [z0A], gcZ0B := st.gcZ0B ++ [z0B],
                 zkZ0 := st.zkZ0 ++ [ofBytes (blockBytes z0A)] },
       cut Z, (cut s.1, cut s.2), z0A, z0B)

/-- `AEAD::encrypt`, `protocol/aead.h:169-306`. -/
def encrypt (b : Build) (aliceSends : Bool) (st : State) (msgA msgB aad iv : List Byte) (secret : Bool) (m : Nat → Bool)
    (raw0 raw1 : Nat → Block) : Res (State × Sealed × Sealed) := do
  let n := msgA.length
  let (st, Z, s, z0A, z0B) ← stream b st iv n m
  let (st, cA, cB) ←
    (if secret = false then
      let z := toBytes Z
      .ok ({ st with openZ := st.openZ ++ [z], openLen := st.openLen ++ [n] },
        xorBytes msgA z.reverse, xorBytes msgB z.reverse)
    else do
      let zA ← integerToChars s.1
      let zB ← integerToChars s.2
      let sent := xorBytes msgA zA
      let ctxt := xorBytes sent zB
      .ok ({ st with gcZA := st.gcZA ++ [zA.reverse], gcZB := st.gcZB ++ [zB.reverse], zLen := st.zLen ++ [n],
                     zkZ := st.zkZ ++ [ofBytes zA.reverse] }, ctxt, ctxt) : Res (State × List Byte × List Byte))
  let (oA, oB, mulA, mulB) ← obvGhash aliceSends raw0 raw1 st.mulA st.mulB (tagBlocks aad cA)
  let outA := oA ^^^ z0A
  let outB := oB ^^^ z0B
  .ok ({ st with mulA := mulA, mulB := mulB }, ⟨cA, blockToTag (outA ^^^ outB)⟩, ⟨cB, blockToTag (outB ^^^ outA)⟩)

/-- `AEAD::decrypt`, `protocol/aead.h:309-492`. -/
def decrypt (b : Build) (hash : List Byte → List Byte) (aliceSends : Bool) (st : State) (ctxtA ctxtB tagA tagB aad iv : List Byte)
    (secret : Bool) (m : Nat → Bool) (raw0 raw1 : Nat → Block) (rndA rndB : List Byte) :
    Res (State × Opened × Opened) := do
  let n := ctxtA.length
  let (st, Z, s, z0A, z0B) ← stream b st iv n m
  let (st, mA, mB) ←
    (if secret = false then
      let z := toBytes Z
      .ok ({ st with openZ := st.openZ ++ [z], openLen := st.openLen ++ [n] },
        some (xorBytes ctxtA z.reverse), some (xorBytes ctxtB z.reverse))
    else do
      let zA ← integerToChars s.1
      let zB ← integerToChars s.2
      .ok ({ st with gcZA := st.gcZA ++ [zA.reverse], gcZB := st.gcZB ++ [zB.reverse], zLen := st.zLen ++ [n],
                     zkZ := st.zkZ ++ [ofBytes zA.reverse] },
        some (xorBytes (xorBytes zB zA) ctxtA), none) : Res (State × Option (List Byte) × Option (List Byte)))
  let (oA, oB, mulA, mulB) ← obvGhash aliceSends raw0 raw1 st.mulA st.mulB (tagBlocks aad ctxtA)
  let outA := oA ^^^ z0A
  let outB := oB ^^^ z0B
  let comA := Commitment.commit hash rndA (blockBytes outA)
  let comB := Commitment.commit hash rndB (blockBytes outB)
  .ok ({ st with mulA := mulA, mulB := mulB },
    ⟨mA, finish hash outA comB rndB outB tagA⟩, ⟨mB, finish hash outB comA rndA outA tagB⟩)

/-! ### Proofs of records -/

open AEADProof (Check Proof plain checkData)

/-- `itmac_hom_add_check` with a block, `protocol/aead_izk.h:13-28`: BOB's loop runs over `pre_res`, `res ^ pre_res` over `res`. -/
def checkBlock (b : Build) (res pre : Integer) (gc : Block) : Res Check := do
  check b (pre.length = 128) "assert(pre_res.size() == 128)"
  check b (res.length = 128) "assert(res.size() == 128)"
  if 128 < pre.length then .error (.ub "set_bit past the block")
  else if pre.length < res.length then .error (.ub "res ^ pre_res: pre_res is shorter")
  else .ok (.block res (pre.take res.length) gc)

/-- `itmac_hom_add_check` with bytes, `protocol/aead_izk.h:31-47`: BOB's loop runs over the `len * 8` bits of his share, `res ^ pre_res` over `res`.  The share that counts is the part of
it that meets `res`, continued by zeros. -/
def checkBytes (b : Build) (res pre : Integer) (gc : List Byte) (len : Nat) : Res Check := do
  check b (pre.length = len * 8) "assert(pre_res.size() == (len * 8))"
  check b (res.length = len * 8) "assert(res.size() == (len * 8))"
  if pre.length < len * 8 then .error (.ub "pre_res[i] out of range")
  else if pre.length < res.length then .error (.ub "res ^ pre_res: pre_res is shorter")
  else .ok (.bytes res (pre.take res.length) ((gc.take len ++ List.replicate (res.length / 8 - len) 0).take (res.length / 8)))

/-- The constructor of `AEAD_Proof`, `protocol/aead_izk.h:60-75`. -/
def construct (b : Build) (E : Block → Block) (fixedIv : Integer) (st : State) : Res (Proof × Check) := do
  let H ← aes E (ofNat 128 0)
  let c ← checkBlock b H st.zkH st.gcHB
  .ok (⟨E, fixedIv, H⟩, c)

/-- `Z` and `Z0` of `prove_aead` and `prove_aead_last`, `protocol/aead_izk.h:128-143` and `193-208`. -/
def proofStream (b : Build) (P : Proof) (iv : List Byte) (n : Nat) : Res (Integer × Integer) := do
  let nonce ← setNonce b P.fixedIv iv
  let (Z, _) ← gctr P.E (1 + ctrLen n) [] nonce
  .ok ((Z.take (Z.length - 128)).drop (padBits n), Z.drop (Z.length - 128))

/-- `protocol/aead_izk.h:146-151` and `161-166`. -/
def popZ0 (b : Build) (st : State) (z0 : Integer) : Res (State × Check) :=
  match st.gcZ0A, st.gcZ0B, st.zkZ0 with
  | _ :: gA, g :: gB, z :: zs => do
    let c ← checkBlock b z0 z g
    .ok ({ st with gcZ0A := gA, gcZ0B := gB, zkZ0 := zs }, c)
  | _, _, _ => do
    check b False "assert(aead->gc_z0.size() != 0 && aead->zk_z0.size() != 0)"
    .error (.ub "front() of an empty deque")

/-- `protocol/aead_izk.h:153-159`. -/
def popOpen (b : Build) (st : State) (Z : Integer) : Res (State × Check) :=
  match st.openZ, st.openLen with
  | z :: zs, n :: ns => do
    let c ← checkData Z z n
    .ok ({ st with openZ := zs, openLen := ns }, c)
  | _, _ => do
    check b False "assert(aead->open_z.size() != 0 && aead->open_len.size() != 0)"
    .error (.ub "front() of an empty deque")

/-- `protocol/aead_izk.h:168-176`. -/
def popZ (b : Build) (st : State) (Z : Integer) : Res (State × Check) :=
  match st.gcZA, st.gcZB, st.zkZ with
  | _ :: gA, g :: gB, z :: zs =>
    match st.zLen with
    | n :: ns => do
      let c ← checkBytes b Z z g n
      .ok ({ st with gcZA := gA, gcZB := gB, zkZ := zs, zLen := ns }, c)
    | [] => .error (.ub "z_len.front() of an empty deque")
  | _, _, _ => do
    check b False "assert(aead->gc_z.size() != 0 && aead->zk_z.size() != 0)"
    .error (.ub "front() of an empty deque")

/-- `prove_aead`, `protocol/aead_izk.h:120-184`. -/
def prove (b : Build) (P : Proof) (st : State) (ctxt iv : List Byte) (secret : Bool) :
    Res (State × List Check × Option Integer × Integer) := do
  let (Z, z0) ← proofStream b P iv ctxt.length
  let (st, c1) ← popZ0 b st z0
  if secret = false then
    let (st, c2) ← popOpen b st Z
    .ok (st, [c1, c2], none, z0)
  else
    let (st, c2) ← popZ b st Z
    .ok (st, [c1, c2], some (plain Z ctxt), z0)

/-- `prove_aead_last`, `protocol/aead_izk.h:186-215`. -/
def proveLast (b : Build) (P : Proof) (ctxt iv : List Byte) : Res (Integer × Integer) := do
  let (Z, z0) ← proofStream b P iv ctxt.length
  .ok (plain Z ctxt, z0)

/-- `prove_aead` for a list of records. Calls of `protocol/aead_izk.h:120`. -/
def proveAll (b : Build) (P : Proof) :
    State → List (List Byte × List Byte × Bool) → Res (State × List (List Check × Option Integer × Integer))
  | st, [] => .ok (st, [])
  | st, (ctxt, iv, secret) :: rs => do
    let (st, c) ← prove b P st ctxt iv secret
    let (st, cs) ← proveAll b P st rs
    .ok (st, c :: cs)

/-! ### The prover of the proxy protocol -/

/-- `AESProver::computeCounter`, `protocol/prove_aes.h:143-155`. -/
def computeCounter (b : Build) (E : Block → Block) (fixedIv : Integer) (iv : List Byte) (n : Nat) : Res Integer := do
  let nonce ← setNonce b fixedIv iv
  let (Z, _) ← AESProver.gctr E (1 + ctrLen n) [] nonce
  .ok ((Z.take (Z.length - 128)).drop (padBits n))

/-- `AESProver::prove_private_msgs`, `protocol/prove_aes.h:235-254`.  `c ^= msgs` runs over the bits of `c`. -/
def provePrivate (b : Build) (E : Block → Block) (fixedIv : Integer) (iv : List Byte) (msgs : Integer) (ctxts : List Byte) (n : Nat) :
    Res Bool := do
  check b (msgs.length = 8 * n) "assert(msgs.size() == 8 * msg_len)"
  let c ← computeCounter b E fixedIv iv n
  if msgs.length < c.length then .error (.ub "c ^= msgs: msgs is shorter")
  else if c.length ≠ 8 * n then .error (.ub "reveal or memcmp past the end of expected")
  else .ok ((toBytes (xor c msgs)).reverse == ctxts)

/-! ### SHA-256 -/

open SHA (Sha inputWords chunkCompress chunkLoop revealWords plainTail padding)

/-- `SHA256::update`, `cipher/sha256.h:210-253`. -/
def shaUpdate (b : Build) (s : Sha) (padded : Integer) (reuseOut : Bool) : Res (List Integer × Sha) := do
  check b (padded.length % 512 = 0) "assert(padded_len % CHUNKLEN == 0)"
  let data ← inputWords padded
  let numChunk := padded.length / 512
  if numChunk = 0 then .error (.ub "update: input_data[j] of an empty vector")
  let tmp := (List.range 16).map fun j => data.getD j []
  let (dig, s) :=
    if reuseOut then
      if s.gcOut then (s.ivOut, s)
      else
        let dig := chunkCompress s.k s.h tmp
        (dig, { s with ivOut := dig, gcOut := true, calls := s.calls + 1 })
    else (chunkCompress s.k s.h tmp, { s with calls := s.calls + 1 })
  .ok (chunkLoop s.k data numChunk dig, { s with calls := s.calls + (numChunk - 1) })

/-- `SHA256::digest`, `cipher/sha256.h:516-520`. -/
def shaDigest (b : Build) (s : Sha) (input : Integer) (reuseOut : Bool) : Res (List Integer × Sha) :=
  shaUpdate b s (padding input) reuseOut

/-- `SHA256::opt_rounds_update`, `cipher/sha256.h:377-420`. -/
def shaRoundsUpdate (b : Build) (s : Sha) (padded : Integer) (reuseIn : Bool) : Res (List Integer × Sha) := do
  check b (padded.length % 512 = 0) "assert(padded_len % CHUNKLEN == 0)"
  let data ← inputWords padded
  let numChunk := padded.length / 512
  if numChunk = 0 then .error (.ub "opt_rounds_update: input_data[j] of an empty vector")
  let tmp := (List.range 16).map fun j => data.getD j []
  let (dig, s) :=
    if reuseIn then
      if s.gcIn then (s.ivInSec, s)
      else
        let dig := chunkCompress s.k s.h tmp
        (dig, { s with ivInSec := dig, gcIn := true, calls := s.calls + 1 })
    else (chunkCompress s.k s.h tmp, { s with calls := s.calls + 1 })
  .ok (chunkLoop s.k data numChunk dig, { s with calls := s.calls + (numChunk - 1) })

/-- `SHA256::opt_rounds_digest`, `cipher/sha256.h:531-537`. -/
def shaRoundsDigest (b : Build) (s : Sha) (input : Integer) (reuseIn : Bool) : Res (List Integer × Sha) :=
  shaRoundsUpdate b s (padding input) reuseIn

/-- The first part of `SHA256::opt_update` outside the proof, `cipher/sha256.h:261-333`.  `chunk_compress` reads sixteen words of `input_data` (`cipher/sha256.h:426-427`). -/
def shaOptFirst (b : Build) (s : Sha) (sec : Integer) (reuseIn : Bool) : Res (List (BitVec 32) × Sha) := do
  check b (sec.length = 512) "assert(len == CHUNKLEN)"
  let data ← inputWords sec
  if reuseIn && s.gcIn then
    match s.ivIn[s.pos.toNat]? with
    | some dig => .ok (dig, s)
    | none => .error (.ub "opt_update: iv_in_hashes[pos] out of range")
  else if data.length < 16 then .error (.ub "chunk_compress: input_data has less than sixteen words")
  else
    let dig := revealWords (chunkCompress s.k s.h (data.take 16))
    if reuseIn then
      .ok (dig, { s with calls := s.calls + 1, ivIn := s.ivIn ++ [dig], gcIn := true, pos := s.pos + 1 })
    else .ok (dig, { s with calls := s.calls + 1 })

/-- `SHA256::opt_digest` outside the proof, `cipher/sha256.h:522-529` and `255-375`. -/
def shaOptDigest (b : Build) (s : Sha) (garbage : List Byte) (sec : Integer) (pub : List Byte) (reuseIn : Bool) :
    Res (List (BitVec 32) × Sha) := do
  let (dig, s) ← shaOptFirst b s sec reuseIn
  .ok (plainTail garbage dig pub, s)

end Verif.Model.NoAssert
