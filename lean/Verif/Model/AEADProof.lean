import Verif.Model.AEAD

/-!
Model of `AEAD_Proof`, `protocol/aead_izk.h:49-216`.

Both parties run the same code on authenticated values in the zero-knowledge backend; an `Integer` is its value.  A call of
`itmac_hom_add_check` or `check_zero` is recorded as a `Check` with its arguments; what such a call establishes is the
subject of C32 and C33 (`Verif.Props.ZkCheck`).  `E` is `computeAES_KS(expanded_key, ·)` for the proven key.
-/

namespace Verif.Model.AEADProof
open Integer AEAD

/-- A check that was issued. `protocol/aead_izk.h:13,31`, `backend/check_zero.h:37`. -/
inductive Check where
  /-- `itmac_hom_add_check(res, pre_res, party, gc_share_block)`, BOB's block -/
  | block (res pre : Integer) (gc : Block)
  /-- `itmac_hom_add_check(res, pre_res, party, gc_share, len)`, BOB's bytes -/
  | bytes (res pre : Integer) (gc : List Byte)
  /-- `check_zero(res, data, len, party)` with bytes -/
  | data (res : Integer) (data : List Byte)
  deriving DecidableEq

/-- The assertions of `protocol/aead_izk.h:13-18`. -/
def checkBlock (res pre : Integer) (gc : Block) : Res Check :=
  if pre.length ≠ 128 then .error (.error "assert(pre_res.size() == 128)")
  else if res.length ≠ 128 then .error (.error "assert(res.size() == 128)")
  else .ok (.block res pre gc)

/-- The assertions of `protocol/aead_izk.h:34-35`. -/
def checkBytes (res pre : Integer) (gc : List Byte) (len : Nat) : Res Check :=
  if pre.length ≠ len * 8 then .error (.error "assert(pre_res.size() == (len * 8))")
  else if res.length ≠ len * 8 then .error (.error "assert(res.size() == (len * 8))")
  else .ok (.bytes res pre (gc.take len))

/-- The size test of `backend/check_zero.h:37-41`. -/
def checkData (res : Integer) (data : List Byte) (len : Nat) : Res Check :=
  if res.length ≠ len * 8 then .error (.error "inconsistent length!")
  else .ok (.data res (data.take len))

/-- The object: `protocol/aead_izk.h:51-56`. -/
structure Proof where
  E : Block → Block
  fixedIv : Integer
  H : Integer

/-- The constructor, `protocol/aead_izk.h:60-75`. -/
def construct (E : Block → Block) (fixedIv : Integer) (st : State) : Res (Proof × Check) := do
  let H ← aes E (ofNat 128 0)
  let c ← checkBlock H st.zkH st.gcHB
  .ok (⟨E, fixedIv, H⟩, c)

/-- `Z` and `Z0` of `prove_aead` and `prove_aead_last`, `protocol/aead_izk.h:128-143` and `193-208` (`inc`, `gctr` and
`set_nonce`, lines 77-118, have the same text as in `AEAD`). -/
def stream (P : Proof) (iv : List Byte) (n : Nat) : Res (Integer × Integer) := do
  let nonce ← setNonce P.fixedIv iv
  let (Z, _) ← gctr P.E (1 + ctrLen n) [] nonce
  .ok ((Z.take (Z.length - 128)).drop (padBits n), Z.drop (Z.length - 128))

/-- The check of `Z0` and the two removals, `protocol/aead_izk.h:146-151` and `161-166`. -/
def popZ0 (st : State) (z0 : Integer) : Res (State × Check) :=
  match st.gcZ0A, st.gcZ0B, st.zkZ0 with
  | _ :: gA, b :: gB, z :: zs => do
    let c ← checkBlock z0 z b
    .ok ({ st with gcZ0A := gA, gcZ0B := gB, zkZ0 := zs }, c)
  | _, _, _ => .error (.error "assert(aead->gc_z0.size() != 0 && aead->zk_z0.size() != 0)")

/-- Lines 153-159. `protocol/aead_izk.h:153-159`. -/
def popOpen (st : State) (Z : Integer) : Res (State × Check) :=
  match st.openZ, st.openLen with
  | z :: zs, n :: ns => do
    let c ← checkData Z z n
    .ok ({ st with openZ := zs, openLen := ns }, c)
  | _, _ => .error (.error "assert(aead->open_z.size() != 0 && aead->open_len.size() != 0)")

/-- Lines 168-176; `z_len` is not covered by the assertion. `protocol/aead_izk.h:168-176`. -/
def popZ (st : State) (Z : Integer) : Res (State × Check) :=
  match st.gcZA, st.gcZB, st.zkZ with
  | _ :: gA, b :: gB, z :: zs =>
    match st.zLen with
    | n :: ns => do
      let c ← checkBytes Z z b n
      .ok ({ st with gcZA := gA, gcZB := gB, zkZ := zs, zLen := ns }, c)
    | [] => .error (.ub "z_len.front() of an empty deque")
  | _, _, _ => .error (.error "assert(aead->gc_z.size() != 0 && aead->zk_z.size() != 0)")

/-- `Z ^ Integer(ctxt_len * 8, rctxt, PUBLIC)`, lines 178-182 and 210-214.
`protocol/aead_izk.h:178-182,210-214`. -/
def plain (Z : Integer) (ctxt : List Byte) : Integer := xor Z (ofBytes ctxt.reverse)

/-- `prove_aead`, `protocol/aead_izk.h:120-184`: the state of the `AEAD` object, the checks issued, `msg` (if written),
`tag_z0`. -/
def prove (P : Proof) (st : State) (ctxt iv : List Byte) (secret : Bool) :
    Res (State × List Check × Option Integer × Integer) := do
  let (Z, z0) ← stream P iv ctxt.length
  let (st, c1) ← popZ0 st z0
  if secret = false then
    let (st, c2) ← popOpen st Z
    .ok (st, [c1, c2], none, z0)
  else
    let (st, c2) ← popZ st Z
    .ok (st, [c1, c2], some (plain Z ctxt), z0)

/-- `prove_aead_last`, `protocol/aead_izk.h:186-215`. -/
def proveLast (P : Proof) (ctxt iv : List Byte) : Res (Integer × Integer) := do
  let (Z, z0) ← stream P iv ctxt.length
  .ok (plain Z ctxt, z0)

/-- `prove_aead` for a list of records. Calls of `protocol/aead_izk.h:120`. -/
def proveAll (P : Proof) : State → List (List Byte × List Byte × Bool) → Res (State × List (List Check × Option Integer × Integer))
  | st, [] => .ok (st, [])
  | st, (ctxt, iv, secret) :: rs => do
    let (st, c) ← prove P st ctxt iv secret
    let (st, cs) ← proveAll P st rs
    .ok (st, c :: cs)

end Verif.Model.AEADProof
