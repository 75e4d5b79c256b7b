import Verif.Model.OLE
import Mathlib.Data.Int.GCD

/-! `protocol/e2f.h`: shares of a point to shares of its x coordinate.  A `BIGNUM` is an integer, `BN_mod_*` give the
non-negative residue.  The two parties run in lock step; `open` is the exchange of shares (`e2f.h:55-80`). -/

namespace Verif.Model.E2F
open Verif.Model

/-- Members filled by `compute_offline`, `e2f.h:16-29`. -/
structure Pre where
  a : Int
  b : Int
  c : Int
  bp : Int
  cp : Int
  r : Int
  r2 : Int

/-- The raw random numbers of a party, `e2f.h:83-90` (`BN_rand`), before reduction. -/
structure Rand where
  a : Nat
  b : Nat
  bp : Nat
  r : Nat

/-- `BN_rand(a, …); BN_mod(a, a, q)`. `protocol/e2f.h:83-90`. -/
def Rand.reduce (q : Nat) (r : Rand) : Rand := ⟨r.a % q, r.b % q, r.bp % q, r.r % q⟩

/-- Inputs of the OLE, `e2f.h:103-115`. -/
def aliceIn (r : Rand) : List Nat := [r.a, r.b, r.a, r.bp, r.r]
/-- `protocol/e2f.h:110-114`. -/
def bobIn (r : Rand) : List Nat := [r.b, r.a, r.bp, r.a, r.r]

/-- The rest of `compute_offline`, `e2f.h:119-129`, given the five outputs of the OLE. -/
def offline (q : Nat) (r : Rand) (out : List Int) : Res Pre :=
  match out with
  | [o0, o1, o2, o3, o4] =>
    let c := ((r.a : Int) * r.b) % q
    let c := (c + o0) % q
    let c := (c + o1) % q
    let cp := ((r.a : Int) * r.bp) % q
    let cp := (cp + o2) % q
    let cp := (cp + o3) % q
    let r2 := ((r.r : Int) * r.r) % q
    let r2 := (r2 + o4) % q
    let r2 := (r2 + o4) % q
    .ok ⟨r.a, r.b, c, r.bp, cp, r.r, r2⟩
  | _ => .error (.ub "five OLE outputs expected")

/-- `compute_offline` of both parties, `e2f.h:82-131`; `aliceSends` tells which party holds the offset of the
correlated OT (`ole.h:51`); `n` is `bit_length`. -/
def offlineBoth (ccrh : Block → Block) (q n : Nat) (delta : Block) (K : Nat → Block) (aliceSends : Bool) (ra rb : Rand) :
    Res (Pre × Pre) := do
  let ra := ra.reduce q
  let rb := rb.reduce q
  if aliceSends then
    let (oa, ob, _) ← OLE.compute ccrh q n delta K ((aliceIn ra).map Int.ofNat) ((bobIn rb).map Int.ofNat)
    let pa ← offline q ra oa
    let pb ← offline q rb ob
    .ok (pa, pb)
  else
    let (ob, oa, _) ← OLE.compute ccrh q n delta K ((bobIn rb).map Int.ofNat) ((aliceIn ra).map Int.ofNat)
    let pa ← offline q ra oa
    let pb ← offline q rb ob
    .ok (pa, pb)

/-- `open`, `e2f.h:55-80`: every party adds the value of the other. -/
def openv (q : Nat) (va vb : Int) : Int × Int := ((va + vb) % q, (vb + va) % q)

/-- `BN_mod_inverse(w, w, q)`: the inverse if there is one; otherwise nothing is written (the result is not checked).
`protocol/e2f.h:168`. -/
def modInverse (q : Nat) (w : Int) : Int :=
  if Int.gcd w q = 1 then Int.gcdA w q % q else w

/-- `compute_online` of both parties, `e2f.h:133-186`. -/
def online (q : Nat) (pa pb : Pre) (xa ya xb yb : Int) : Res (Int × Int) := do
  let xbmaA := (q : Int) - xa
  let ybmaA := (q : Int) - ya
  let xbmaB := xb
  let ybmaB := yb
  let wA := (xbmaA - pa.b) % q
  let wB := (xbmaB - pb.b) % q
  let etaA := (ybmaA - pa.bp) % q
  let etaB := (ybmaB - pb.bp) % q
  let (wA, wB) := openv q wA wB
  let (etaA, etaB) := openv q etaA etaB
  let wA := (wA * pa.a) % q
  let wB := (wB * pb.a) % q
  let wA := (wA + pa.c) % q
  let wB := (wB + pb.c) % q
  let (wA, wB) := openv q wA wB
  if wA = 0 then .error (.error "w is zero, invalid!")
  if wB = 0 then .error (.error "w is zero, invalid!")
  let etaA := (etaA * pa.a) % q
  let etaB := (etaB * pb.a) % q
  let etaA := (etaA + pa.cp) % q
  let etaB := (etaB + pb.cp) % q
  let wA := modInverse q wA
  let wB := modInverse q wB
  let etaA := (wA * etaA) % q
  let etaB := (wB * etaB) % q
  let etaA := (etaA - pa.r) % q
  let etaB := (etaB - pb.r) % q
  let (etaA, etaB) := openv q etaA etaB
  let outA := (etaA * pa.r) % q
  let outB := (etaB * pb.r) % q
  let outA := (outA + outA) % q
  let outB := (outB + outB) % q
  let outA := (outA + pa.r2) % q
  let outB := (outB + pb.r2) % q
  let outA := (outA - xa) % q
  let outB := (outB - xb) % q
  let sqA := 0
  let sqB := (etaB * etaB) % q
  .ok ((outA + sqA) % q, (outB + sqB) % q)

/-- Both phases. `protocol/e2f.h:82-187`. -/
def run (ccrh : Block → Block) (q n : Nat) (delta : Block) (K : Nat → Block) (aliceSends : Bool) (ra rb : Rand)
    (xa ya xb yb : Int) : Res (Int × Int) := do
  let (pa, pb) ← offlineBoth ccrh q n delta K aliceSends ra rb
  online q pa pb xa ya xb yb

end Verif.Model.E2F
