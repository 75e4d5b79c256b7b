import Verif.Model.BlockConv

/-!
Model of `backend/check_zero.h` and of the two `itmac_hom_add_check` of `protocol/aead_izk.h`.

A wire of the zero-knowledge backend is a block `mac` held by ALICE (the prover) and a block `key` held by BOB (the
verifier).  `Delta` is BOB's.  Xor of wires is the xor of the blocks on both sides and a public constant gets the
blocks `Pub.mac b` and `Pub.key b` (emp-zk, external).  `auth_helper->hash` is, on each side, the list of the
blocks put so far; emp-zk compares the two digests at the end (external).
-/

namespace Verif.Model.ZkCheck
open Integer

/-- The blocks put into `auth_helper->hash` by ALICE and by BOB.
`backend/check_zero.h:11-15,23-29`. -/
structure Tr where
  a : List Block
  b : List Block

/-- The two parties' blocks of the public constants.
`Integer(..., PUBLIC)` of emp-zk, as in `backend/check_zero.h:54`. -/
structure Pub where
  mac : Bool → Block
  key : Bool → Block

/-- `check_zero` on blocks and on an `Integer`, `backend/check_zero.h:9-17` and `20-32`. -/
def checkZero (t : Tr) (macs keys : List Block) : Tr := ⟨t.a ++ macs, t.b ++ keys⟩

/-- Xor of two authenticated integers, one side.
`expected_input ^ input`, `backend/check_zero.h:55`. -/
def xorWires (x y : List Block) : List Block := List.zipWith (· ^^^ ·) x y

/-- `check_zero` against public data, `backend/check_zero.h:37-57`.  `w` is `sizeof(T)`; `dataA`, `dataB` are the
memory images of `data` on the two sides (`len * w` bytes).  `memcmp` at line 50 compares `len` bytes. -/
def checkZeroData (pub : Pub) (w len : Nat) (t : Tr) (macs keys : List Block) (dataA dataB : List Byte) : Res Tr :=
  if macs.length ≠ len * w * 8 then .error (.error "inconsistent length!")
  else
    let tmp : Integer := macs.map fun m => m.getLsbD 0
    let expected := toBytes tmp
    if expected.take len ≠ dataA.take len then .error (.error "opened data is not consistent in ALICE side!")
    else .ok (checkZero t (xorWires ((ofBytes dataA).map pub.mac) macs) (xorWires ((ofBytes dataB).map pub.key) keys))

/-- The loop over the bits of `blk`, `protocol/aead_izk.h:19-24` (BOB). -/
def addBlock (delta : Block) (keys : List Block) (blk : Block) : List Block :=
  (List.range keys.length).map fun i =>
    let tmp := 1#128 <<< i
    if tmp &&& blk = tmp then keys.getD i 0 ^^^ delta else keys.getD i 0

/-- `itmac_hom_add_check` with a block, `protocol/aead_izk.h:13-27`; also returns BOB's side of `pre_res`, which is changed
in place. -/
def homAddBlock (delta : Block) (t : Tr) (resM resK preM preK : List Block) (blk : Block) : Res (Tr × List Block) :=
  if preM.length ≠ 128 then .error (.error "assert(pre_res.size() == 128)")
  else if resM.length ≠ 128 then .error (.error "assert(res.size() == 128)")
  else
    let preK := addBlock delta preK blk
    .ok (checkZero t (xorWires resM preM) (xorWires resK preK), preK)

/-- The loop over the bits of the share, `protocol/aead_izk.h:39-42` (BOB). -/
def addBits (delta : Block) (keys : List Block) (data : Integer) : List Block :=
  List.zipWith (fun k b => if b then k ^^^ delta else k) keys data

/-- `itmac_hom_add_check` with bytes, `protocol/aead_izk.h:31-47`. -/
def homAddBytes (delta : Block) (t : Tr) (resM resK preM preK : List Block) (share : List Byte) (len : Nat) :
    Res (Tr × List Block) :=
  if preM.length ≠ len * 8 then .error (.error "assert(pre_res.size() == (len * 8))")
  else if resM.length ≠ len * 8 then .error (.error "assert(res.size() == (len * 8))")
  else
    let preK := addBits delta preK (ofBytes (share.take len))
    .ok (checkZero t (xorWires resM preM) (xorWires resK preK), preK)

end Verif.Model.ZkCheck
