import Verif.Model.ShaHistory

/-! `class PRF`, `cipher/prf.h:10-232`. -/

namespace Verif.Model.SHA
open Verif.Model Verif.Model.Integer

/-- Members of `PRF`, `cipher/prf.h:15-21`. -/
structure Prf where
  calls : Nat
  /-- `zk_sec_M` -/
  zkSecM : List Integer
  /-- `pub_M` -/
  pubM : List (List (BitVec 32))
  /-- `zk_pos` -/
  zkPos : Nat

/-- Constructed object, `cipher/prf.h:12-21`. -/
def Prf.new : Prf := ⟨0, [], [], 0⟩

/-- `init`, `cipher/prf.h:23-26`. -/
def Prf.init (p : Prf) (m : Hmac) (secret : Integer) : Res (Prf × Hmac) := do
  let m ← m.init secret
  .ok ({ p with calls := 0 }, m)

/-- Number of blocks, `cipher/prf.h:33,68,141`. -/
def prfBlocks (bitlen : Nat) : Nat := bitlen / (8 * 32) + 1

/-- Final truncation `res.bits.erase(begin, begin + blks*256 - bitlen)`, `cipher/prf.h:54-55,126-127,167-168`. -/
def prfTrunc (res : Integer) (bitlen : Nat) : Integer := res.drop (prfBlocks bitlen * (8 * 32) - bitlen)

/-- Loop of `phash`, `cipher/prf.h:39-52`; `a` is `A[i-1]`. -/
def phashLoop (seed : Integer) : Nat → Prf → Hmac → Integer → Integer → Res (Integer × Prf × Hmac)
  | 0, p, m, _, res => .ok (res, p, m)
  | n + 1, p, m, a, res => do
    let (tmp, m) ← m.hmac a
    let a := concat [] tmp
    let as := concat (concat [] [a]) [seed]
    let (tmp, m) ← m.hmac as
    phashLoop seed n { p with calls := p.calls + 2 } m a (concat res tmp)

/-- `phash`, `cipher/prf.h:28-57` (`secret` is not used by the code). -/
def Prf.phash (p : Prf) (m : Hmac) (res : Integer) (bitlen : Nat) (seed : Integer) : Res (Integer × Prf × Hmac) := do
  let (res, p, m) ← phashLoop seed (prfBlocks bitlen) p m seed res
  .ok (prfTrunc res bitlen, p, m)

/-- The four bytes of an opened word, most significant first, `cipher/prf.h:111-116`. -/
def wordBytes (w : BitVec 32) : List Byte :=
  [(w >>> 24).setWidth 8, (w >>> 16).setWidth 8, (w >>> 8).setWidth 8, w.setWidth 8]

/-- Loop of `opt_phash`, `cipher/prf.h:86-125`; `a` is the byte string `A[i-1]`, `g` supplies the indeterminate
contents of the work buffer of each `opt_hmac_sha256` call. -/
def optPhashLoop (g : Nat → List Byte) (seed : List Byte) (ri ro zk : Bool) :
    Nat → Prf → Hmac → List Byte → Integer → Res (Integer × Prf × Hmac)
  | 0, p, m, _, res => .ok (res, p, m)
  | n + 1, p, m, a, res => do
    let (tmp, m) ← m.optHmac (g (2 * n + 1)) a ri ro zk
    let (tmpd, p) ← (if !zk then
        let tmpd := revealWords tmp
        .ok (tmpd, { p with calls := p.calls + 1, pubM := p.pubM ++ [tmpd] })
      else
        match p.pubM[p.zkPos]? with
        | some tmpd => .ok (tmpd, { p with calls := p.calls + 1, zkSecM := p.zkSecM ++ [reverseConcat [] tmp],
                                           zkPos := p.zkPos + 1 })
        | none => .error (.ub "opt_phash: pub_M[zk_pos] out of range") : Res (List (BitVec 32) × Prf))
    let a := tmpd.flatMap wordBytes
    let (tmp, m) ← m.optHmac (g (2 * n)) (a ++ seed) ri ro zk
    optPhashLoop g seed ri ro zk n { p with calls := p.calls + 1 } m a (concat res tmp)

/-- `opt_phash`, `cipher/prf.h:59-130`. -/
def Prf.optPhash (p : Prf) (m : Hmac) (g : Nat → List Byte) (res : Integer) (bitlen : Nat) (seed : List Byte)
    (ri ro zk : Bool) : Res (Integer × Prf × Hmac) := do
  let (res, p, m) ← optPhashLoop g seed ri ro zk (prfBlocks bitlen) p m seed res
  .ok (prfTrunc res bitlen, p, m)

/-- Loop of `opt_rounds_phash`, `cipher/prf.h:152-166`. -/
def roundsPhashLoop (seed : Integer) (ri ro : Bool) : Nat → Prf → Hmac → Integer → Integer → Res (Integer × Prf × Hmac)
  | 0, p, m, _, res => .ok (res, p, m)
  | n + 1, p, m, a, res => do
    let (tmp, m) ← m.optRoundsHmac a ri ro
    let a := concat [] tmp
    let as := concat (concat [] [a]) [seed]
    let (tmp, m) ← m.optRoundsHmac as ri ro
    roundsPhashLoop seed ri ro n { p with calls := p.calls + 2 } m a (concat res tmp)

/-- `opt_rounds_phash`, `cipher/prf.h:132-170`.  The seed is fed as an input of ALICE (line 150), here with its own
value; `zk_flag` is not used by the code. -/
def Prf.optRoundsPhash (p : Prf) (m : Hmac) (res : Integer) (bitlen : Nat) (seed : List Byte) (ri ro : Bool) :
    Res (Integer × Prf × Hmac) := do
  let a0 := ofBytes seed.reverse
  let (res, p, m) ← roundsPhashLoop a0 ri ro (prfBlocks bitlen) p m a0 res
  .ok (prfTrunc res bitlen, p, m)

/-- `compute`, `cipher/prf.h:172-182`. -/
def Prf.compute (p : Prf) (m : Hmac) (res : Integer) (bitlen : Nat) (label seed : Integer) : Res (Integer × Prf × Hmac) :=
  p.phash m res bitlen (concat (concat [] [label]) [seed])

/-- `opt_compute`, `cipher/prf.h:184-202`. -/
def Prf.optCompute (p : Prf) (m : Hmac) (g : Nat → List Byte) (res : Integer) (bitlen : Nat) (label seed : List Byte)
    (ri ro zk : Bool) : Res (Integer × Prf × Hmac) :=
  p.optPhash m g res bitlen (label ++ seed) ri ro zk

/-- `opt_rounds_compute`, `cipher/prf.h:204-222`. -/
def Prf.optRoundsCompute (p : Prf) (m : Hmac) (res : Integer) (bitlen : Nat) (label seed : List Byte) (ri ro : Bool) :
    Res (Integer × Prf × Hmac) :=
  p.optRoundsPhash m res bitlen (label ++ seed) ri ro

/-- `prf_check`, `cipher/prf.h:226-231`: the pairs handed to `check_zero`, or an error on different lengths. -/
def Prf.checkPairs (p : Prf) : Res (List (Integer × List (BitVec 32))) :=
  if p.pubM.length ≠ p.zkSecM.length then .error (.error "length of M is not consistent!")
  else .ok (p.zkSecM.zip p.pubM)

/-- A public call on a `PRF` object and its `HMAC_SHA256` object; each computation writes to an empty `res`.
`cipher/prf.h:23,172,184,204`. -/
inductive PrfOp where
  | init (secret : Integer)
  | compute (bitlen : Nat) (label seed : Integer)
  | optCompute (g : Nat → List Byte) (bitlen : Nat) (label seed : List Byte) (ri ro : Bool)
  | optRounds (bitlen : Nat) (label seed : List Byte) (ri ro : Bool)

/-- One call, `cipher/prf.h:23,172,184,204`. -/
def Prf.step (p : Prf) (m : Hmac) : PrfOp → Res (Option (List Bool) × Prf × Hmac)
  | .init k => do let (p, m) ← p.init m k; .ok (none, p, m)
  | .compute b l s => do let (r, p, m) ← p.compute m [] b l s; .ok (some r.reverse, p, m)
  | .optCompute g b l s ri ro => do let (r, p, m) ← p.optCompute m g [] b l s ri ro false; .ok (some r.reverse, p, m)
  | .optRounds b l s ri ro => do let (r, p, m) ← p.optRoundsCompute m [] b l s ri ro; .ok (some r.reverse, p, m)

/-- A sequence of calls. Not in the code: calls of the members `cipher/prf.h:23,172,184,204`. -/
def Prf.run (p : Prf) (m : Hmac) : List PrfOp → Res (List (Option (List Bool)) × Prf × Hmac)
  | [] => .ok ([], p, m)
  | op :: ops => do
    let (o, p, m) ← p.step m op
    let (os, p, m) ← p.run m ops
    .ok (o :: os, p, m)

end Verif.Model.SHA
