import Verif.Model.Session
import Verif.Model.ZkCheck

/-!
The proof phase on the side of BOB, the verifier: the blocks BOB puts into `auth_helper->hash` by `check_zero` (`backend/check_zero.h`) and
`itmac_hom_add_check` (`protocol/aead_izk.h`), and by the opening in `finalize_check` (`protocol/post_record.h:184-186`).

BOB holds a key per wire and `Delta`; the key is the MAC of ALICE, changed by `Delta` if the bit is one (emp-zk, external).  An opening to both
parties: ALICE sends bits, BOB puts the keys corrected by these bits (emp-zk, external); BOB reads the bits received.  At the end ALICE sends the digest
of what ALICE has put, and BOB compares it with the digest of its own blocks (emp-zk, external).  The tests of the lengths are those of the code; ALICE's
own test in `check_zero.h:42-52` is not on this side.
-/

namespace Verif.Model.ZkVerifier
open Integer AEADProof SHA ZkCheck Session

/-- What BOB checks, with the values of the wires (which BOB does not know).
`protocol/aead_izk.h:13,31`, `backend/check_zero.h:37`, `protocol/post_record.h:186`. -/
inductive Item where
  /-- a check of the records or of a finished message -/
  | check (c : Check)
  /-- `check_zero(x, w, n, party)` with `uint32_t` data, `cipher/prf.h:230`, `cipher/sha256.h:548` -/
  | words (x : Integer) (w : List (BitVec 32))
  /-- the opening of `x` when ALICE sends `y`, `protocol/post_record.h:186` -/
  | opening (x y : Integer)

/-- ALICE's blocks for the wires of an item: of the value checked, and of `pre_res`.
`input[i].bit` of ALICE, `backend/check_zero.h:24`. -/
structure Macs where
  res : List Block
  pre : List Block

/-- BOB's key of a wire. `input[i].bit` of BOB, `backend/check_zero.h:29`. -/
def wireKey (delta mac : Block) (b : Bool) : Block := if b then mac ^^^ delta else mac

/-- BOB's keys of an integer. `input[i].bit` of BOB, `backend/check_zero.h:27-30`. -/
def keysOf (delta : Block) (macs : List Block) (x : Integer) : List Block := List.zipWith (wireKey delta) macs x

/-- BOB's side of `check_zero` against public data of `n` bits, `backend/check_zero.h:37-41,54-55`. -/
def zeroData (key : Bool → Block) (n : Nat) (t keys : List Block) (expected : Integer) : Res (List Block) :=
  if keys.length ≠ n then .error (.error "inconsistent length!")
  else .ok (t ++ xorWires (expected.map key) keys)

/-- BOB's side of `itmac_hom_add_check` with a block, `protocol/aead_izk.h:13-27`. -/
def homBlock (delta : Block) (t resK preK : List Block) (blk : Block) : Res (List Block) :=
  if preK.length ≠ 128 then .error (.error "assert(pre_res.size() == 128)")
  else if resK.length ≠ 128 then .error (.error "assert(res.size() == 128)")
  else .ok (t ++ xorWires resK (addBlock delta preK blk))

/-- BOB's side of `itmac_hom_add_check` with bytes, `protocol/aead_izk.h:31-47`. -/
def homBytes (delta : Block) (t resK preK : List Block) (share : List Byte) (len : Nat) : Res (List Block) :=
  if preK.length ≠ len * 8 then .error (.error "assert(pre_res.size() == (len * 8))")
  else if resK.length ≠ len * 8 then .error (.error "assert(res.size() == (len * 8))")
  else .ok (t ++ xorWires resK (addBits delta preK (ofBytes (share.take len))))

/-- One item: what BOB puts.  `pub` are ALICE's blocks of the public constants.
`protocol/aead_izk.h:13-47`, `backend/check_zero.h:27-30,54-55`. -/
def put (delta : Block) (pub : Bool → Block) (t : List Block) (i : Item) (M : Macs) : Res (List Block) :=
  match i with
  | .check (.block r p g) => homBlock delta t (keysOf delta M.res r) (keysOf delta M.pre p) g
  | .check (.bytes r p g) => homBytes delta t (keysOf delta M.res r) (keysOf delta M.pre p) g g.length
  | .check (.data r d) => zeroData (fun b => wireKey delta (pub b) b) (d.length * 8) t (keysOf delta M.res r) (ofBytes d)
  | .words z w => zeroData (fun b => wireKey delta (pub b) b) (32 * w.length) t (keysOf delta M.res z) (wordsInt w)
  | .opening x y => .ok (t ++ addBits delta (keysOf delta M.res x) y)

/-- All items in order. The calls of `backend/check_zero.h:28-29`, in order. -/
def putAll (delta : Block) (pub : Bool → Block) : List Block → List (Item × Macs) → Res (List Block)
  | t, [] => .ok t
  | t, (i, M) :: l => do
    let t ← put delta pub t i M
    putAll delta pub t l

/-- What an ALICE who follows the protocol puts for an item, on its blocks alone.
`backend/check_zero.h:22-25`. -/
def putMacs (pub : Bool → Block) (i : Item) (M : Macs) : List Block :=
  match i with
  | .check (.block _ _ _) => xorWires M.res M.pre
  | .check (.bytes _ _ _) => xorWires M.res M.pre
  | .check (.data _ d) => xorWires ((ofBytes d).map pub) M.res
  | .words _ w => xorWires ((wordsInt w).map pub) M.res
  | .opening _ _ => M.res

/-- One turn of the loop of `sha256_check`, `cipher/sha256.h:542-550`. -/
def ivItem (m : Hmac) (i : Nat) : Res Item :=
  match m.sha.zkIvIn[i]?, m.sha.ivIn[i]? with
  | some z, some w => .ok (.words z w.reverse)
  | _, _ => .error (.ub "sha256_check: zk_iv_in_hashes[i] out of range")

/-- The calls of `check_zero` in `handshake_check`, `protocol/handshake.h:528-531`, `cipher/prf.h:226-231`, `cipher/sha256.h:542-550`. -/
def handshakeItems (p : Prf) (m : Hmac) : Res (List Item) := do
  let pairs ← p.checkPairs
  let ivs ← (List.range m.sha.ivIn.length).mapM (ivItem m)
  .ok (pairs.map (fun q => .words q.1 q.2) ++ ivs)

/-- The value opened in `finalize_check`, `protocol/post_record.h:176-182`. -/
def openedValue (Hc Hs zc zs : Integer) (encZ0s decZ0s : List Integer) : Integer :=
  let h := reverseConcat [] [Hc]
  let h := reverseConcat h [Hs]
  let h := reverseConcat h [zc]
  let h := reverseConcat h [zs]
  let h := reverseConcat h encZ0s
  reverseConcat h decZ0s

/-- The comparisons of `finalize_check` with the bits `y` received, `protocol/post_record.h:188-198`. -/
def judge (finc fins : PostRecord.Rec) (enc dec : List PostRecord.Rec) (aadLen : Nat) (y : Integer) : Bool :=
  let blks := PostRecord.blockAt y
  let res := finc.compare aadLen (blks 0) (blks 2)
  let res := res && fins.compare aadLen (blks 1) (blks 3)
  let res := enc.zipIdx.foldl (fun res p => res && p.1.compare aadLen (blks 0) (blks (4 + p.2))) res
  dec.zipIdx.foldl (fun res p => res && p.1.compare aadLen (blks 1) (blks (4 + enc.length + p.2))) res

/-- A proof phase as BOB sees it: the items, the value opened at the end, the comparison of the tags with the bits received, the messages.
`protocol/post_record.h:74-200`. -/
structure Bob where
  items : List Item
  value : Integer
  accepts : Integer → Bool
  messages : List Integer

/-- The proof phase in the order of `test/protocol.cpp:127-142` (as `Post.session`). -/
def verify (junk : AESCircuit.Wires) (p : Post) (g : Nat → List Byte) (pms : Nat) (k : MasterSeed) (rc rs tauC tauS : List Byte)
    (finc : PostRecord.Rec) (ivc : List Byte) (fins : PostRecord.Rec) (ivs : List Byte) (claims : List Claim) (aadLen : Nat) :
    Res (Post × Bob) := do
  let (p, k1) ← p.step1 junk g pms k rc rs tauC tauS
  let (p, k2) ← p.step2 finc.ctxt ivc
  match p.ps with
  | none => .error (.ub "null AEAD_Proof object")
  | some P =>
    let (st, k3, _, z0) ← prove P p.s fins.ctxt ivs false
    let hs ← handshakeItems p.hs.hs.prf p.hs.hs.hmac
    let p := { p with s := st, zs := z0 }
    let (p, k4, out) ← p.records claims
    match p.pc, p.ps with
    | some Pc, some Ps =>
      let enc := out.filter (·.1.kind = .client)
      let dec := out.filter (·.1.kind ≠ .client)
      if ¬ ((finc :: fins :: (enc.map (·.1.buf) ++ dec.map (·.1.buf))).all (PostRecord.Rec.readable aadLen)) then .error (.ub "buffer too short")
      else
        let h := openedValue Pc.H Ps.H p.zc p.zs (enc.map (·.2.2)) (dec.map (·.2.2))
        if h.length ≠ 128 * (4 + enc.length + dec.length) then .error (.ub "blks_h: partly uninitialised or overflown")
        else .ok (p, ⟨(k1 ++ k2 ++ k3).map .check ++ hs ++ k4.map .check, h,
          judge finc fins (enc.map (·.1.buf)) (dec.map (·.1.buf)) aadLen, out.map (·.2.1)⟩)
    | _, _ => .error (.ub "null AEAD_Proof object")

end Verif.Model.ZkVerifier
