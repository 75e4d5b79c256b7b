import Verif.Model.AEAD

/-!
Model of `AESProver`, `protocol/prove_aes.h:59-304`.  The prover and the verifier run the same code on the authenticated
value; `reveal(PUBLIC)` gives both the value (or aborts the proof, which is in emp-zk).  `inc` (lines 77-88) and
`set_nonce` (lines 126-141) have the same text as in `AEAD` (`AEAD.inc`, `AEAD.setNonce`) with the nonce public.
-/

namespace Verif.Model.AESProver
open Integer AEAD

/-- The loop of `AESProver::gctr`, `protocol/prove_aes.h:94-100`: the blocks and the nonce. -/
def gctrLoop (E : Block → Block) : Nat → Integer → Res (List Integer × Integer)
  | 0, nonce => .ok ([], nonce)
  | m + 1, nonce => do
    let tmp ← aes E nonce
    let nonce ← inc nonce 32
    let (rest, nonce) ← gctrLoop E m nonce
    .ok (tmp :: rest, nonce)

/-- `AESProver::gctr`, `protocol/prove_aes.h:90-102`. -/
def gctr (E : Block → Block) (m : Nat) (res nonce : Integer) : Res (Integer × Integer) := do
  let (tmp, nonce) ← gctrLoop E m nonce
  .ok (concatOpt res tmp, nonce)

/-- The distance to the next match decreases (used for termination only). -/
theorem dist_lt (t i : BitVec 64) (h : i ≠ t) : (t - (i + 1)).toNat < (t - i).toNat := by
  have h' : i.toNat ≠ t.toNat := fun e => h (BitVec.eq_of_toNat_eq e)
  have h1 := t.isLt
  have h2 := i.isLt
  have e1 : (i + 1).toNat = (i.toNat + 1) % 2 ^ 64 := by rw [BitVec.toNat_add]; rfl
  rw [BitVec.toNat_sub, BitVec.toNat_sub, e1]
  omega

/-- The loop of `AESProver::gctr_opt`, `protocol/prove_aes.h:107-120`, from loop variable `i` on; the list holds
`ids[index], ...`.  `i` and `ids[index] + 1` are `size_t`, so both wrap modulo `2^64`.  The last component counts the
iterations (it is not in the code). -/
def gctrOptLoop (E : Block → Block) (ids : List (BitVec 64)) (i : BitVec 64) (nonce : Integer) :
    Res (List Integer × Integer × Nat) :=
  match ids with
  | [] => .ok ([], nonce, 0)
  | id :: rest =>
    if i = id + 1 then do
      let tmp ← aes E nonce
      match rest with
      | [] => .ok ([tmp], nonce, 1)
      | id' :: rest' => do
        let nonce ← inc nonce 32
        let (r, nonce, n) ← gctrOptLoop E (id' :: rest') (i + 1) nonce
        .ok (tmp :: r, nonce, n + 1)
    else do
      let nonce ← inc nonce 32
      let (r, nonce, n) ← gctrOptLoop E (id :: rest) (i + 1) nonce
      .ok (r, nonce, n + 1)
termination_by (ids.length, (ids.headD 0 + 1 - i).toNat)
decreasing_by
  · simp_wf; omega
  · apply Prod.Lex.right
    exact dist_lt _ _ (by assumption)

/-- `AESProver::gctr_opt`, `protocol/prove_aes.h:104-121`. -/
def gctrOpt (E : Block → Block) (ids : List (BitVec 64)) (nonce : Integer) : Res (List Integer × Integer × Nat) :=
  gctrOptLoop E ids 0 nonce

/-- `AESProver::computeCounter`, `protocol/prove_aes.h:143-155`. -/
def computeCounter (E : Block → Block) (fixedIv : Integer) (iv : List Byte) (n : Nat) : Res Integer := do
  let nonce ← setNonce fixedIv iv
  let (Z, _) ← gctr E (1 + ctrLen n) [] nonce
  .ok ((Z.take (Z.length - 128)).drop (padBits n))

/-- `AESCounterInfo`, `protocol/prove_aes.h:51-54`; `mask` are the 16 bytes. -/
structure CounterInfo where
  id : BitVec 64
  mask : List Byte

/-- The bits `[end - 8j, end - 8begin)` of a counter block, `protocol/prove_aes.h:188`, `197`. -/
def piece (x : Integer) (begin j : Nat) : Integer := (x.drop (x.length - 8 * j)).take (8 * j - 8 * begin)

/-- One iteration of the mask loop, `protocol/prove_aes.h:178-193`; the state is `begin` (`-1` is `none`) and `vec`. -/
def maskStep (mask : List Byte) (x : Integer) (s : Option Nat × List Integer) (j : Nat) : Option Nat × List Integer :=
  if mask.getD j 0 ≠ 0 then
    match s.1 with
    | none => (some j, s.2)
    | some b => (some b, s.2)
  else
    match s.1 with
    | some b => (none, s.2 ++ [piece x b j])
    | none => (none, s.2)

/-- The body of the loop over the blocks, `protocol/prove_aes.h:172-202`. -/
def maskBlock (mask : List Byte) (x : Integer) (vec : List Integer) : List Integer :=
  let s := (List.range 16).foldl (maskStep mask x) (none, vec)
  match s.1 with
  | some b => s.2 ++ [piece x b 16]
  | none => s.2

/-- `AESProver::computeCounterOpt`, `protocol/prove_aes.h:157-206`. -/
def computeCounterOpt (E : Block → Block) (fixedIv : Integer) (infos : List CounterInfo) (iv : List Byte) : Res Integer := do
  let nonce ← setNonce fixedIv iv
  let (counters, _, _) ← gctrOpt E (infos.map CounterInfo.id) nonce
  let vec := (infos.zip counters).foldl (fun vec p => maskBlock p.1.mask p.2 vec) []
  .ok (concatOpt [] vec)

/-- The end of the public provers, `protocol/prove_aes.h:218-230` and `266-278`: `expected` has `msg_len` bytes; `reveal`
writes the bytes of `c`. -/
def finishPublic (c : Integer) (msgs ctxts : List Byte) : Res Bool :=
  let revealed := toBytes c
  if revealed.length > msgs.length then .error (.ub "reveal writes past the buffer")
  else if revealed.length < msgs.length then .error (.ub "memcmp of uninitialised bytes")
  else .ok (revealed == (xorBytes msgs ctxts).reverse)

/-- The end of the private provers, `protocol/prove_aes.h:244-253` and `293-302`; `operator^=` on vectors of different size
reads out of range. -/
def finishPrivate (c msgs : Integer) (ctxts : List Byte) (n : Nat) : Res Bool :=
  if msgs.length ≠ 8 * n then .error (.error "assert(msgs.size() == 8 * msg_len)")
  else if c.length ≠ msgs.length then .error (.ub "xor of integers of different size")
  else .ok ((toBytes (xor c msgs)).reverse == ctxts)

/-- `AESProver::prove_public_msgs`, `protocol/prove_aes.h:211-231`. -/
def provePublic (E : Block → Block) (fixedIv : Integer) (iv msgs ctxts : List Byte) : Res Bool := do
  let c ← computeCounter E fixedIv iv msgs.length
  finishPublic c msgs ctxts

/-- `AESProver::prove_private_msgs`, `protocol/prove_aes.h:235-254`. -/
def provePrivate (E : Block → Block) (fixedIv : Integer) (iv : List Byte) (msgs : Integer) (ctxts : List Byte) (n : Nat) :
    Res Bool := do
  let c ← computeCounter E fixedIv iv n
  finishPrivate c msgs ctxts n

/-- `AESProver::prove_public_msgs_opt`, `protocol/prove_aes.h:258-279`. -/
def provePublicOpt (E : Block → Block) (fixedIv : Integer) (infos : List CounterInfo) (iv msgs ctxts : List Byte) :
    Res Bool := do
  let c ← computeCounterOpt E fixedIv infos iv
  finishPublic c msgs ctxts

/-- `AESProver::prove_private_msgs_opt`, `protocol/prove_aes.h:283-303`. -/
def provePrivateOpt (E : Block → Block) (fixedIv : Integer) (infos : List CounterInfo) (iv : List Byte) (msgs : Integer)
    (ctxts : List Byte) (n : Nat) : Res Bool := do
  let c ← computeCounterOpt E fixedIv infos iv
  finishPrivate c msgs ctxts n

end Verif.Model.AESProver
