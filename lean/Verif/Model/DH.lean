import Verif.Model.E2F
import Mathlib.AlgebraicGeometry.EllipticCurve.Affine.Point
import Mathlib.Algebra.Field.ZMod
import Mathlib.Data.Nat.Size

/-! The key exchange of `protocol/handshake.h:101-185` and `PostRecord::reveal_pms` of `protocol/post_record.h:52-72`.

OpenSSL's `EC_GROUP`/`EC_POINT` are outside the model: a point is a point of a short Weierstrass curve over `ZMod q` with
Mathlib's group law, `EC_POINT_mul`/`EC_POINT_add`/`EC_POINT_cmp` are its operations, and the octet encoding is that of
SEC 1 as OpenSSL reads and writes it.  The two `compute_client_VB` overloads (lines 127 and 147) differ only in where the
scalar and `Ta` are kept; the first is modelled.  A connection is the list of the bytes still to be read. -/

namespace Verif.Model.DH
open Verif.Model WeierstrassCurve

/-- The curve `y² = x³ + a x + b`, its generator and the order it declares (`EC_GROUP`).
The `EC_GROUP` passed in `protocol/handshake.h:75`. -/
structure Group (q : Nat) where
  a : ZMod q
  b : ZMod q

variable {q : Nat}

/-- The curve as Mathlib writes it. The `EC_GROUP` passed in `protocol/handshake.h:75`. -/
abbrev Group.W (C : Group q) : Affine (ZMod q) := (⟨0, 0, 0, C.a, C.b⟩ : WeierstrassCurve (ZMod q)).toAffine

/-- `EC_POINT`. As in `protocol/handshake.h:102`. -/
abbrev Group.Pt (C : Group q) : Type := C.W.Point

instance (C : Group q) (x y : ZMod q) : Decidable (C.W.Nonsingular x y) :=
  decidable_of_iff ((y ^ 2 + C.W.a₁ * x * y + C.W.a₃ * y = x ^ 3 + C.W.a₂ * x ^ 2 + C.W.a₄ * x + C.W.a₆) ∧
    (C.W.a₁ * y ≠ 3 * x ^ 2 + 2 * C.W.a₂ * x + C.W.a₄ ∨ y ≠ -y - C.W.a₁ * x - C.W.a₃))
    (by rw [Affine.nonsingular_iff, Affine.equation_iff])

/-- Big-endian bytes of fixed length (`BN_bn2binpad`).
As OpenSSL writes coordinates in `protocol/handshake.h:117`. -/
def be : Nat → Nat → List Byte
  | 0, _ => []
  | len + 1, n => be len (n / 256) ++ [BitVec.ofNat 8 n]

/-- `BN_bin2bn`. As in `backend/bn_utils.h:39`. -/
def unbe (l : List Byte) : Nat := l.foldl (fun n b => 256 * n + b.toNat) 0

/-- `EC_POINT_point2oct(…, POINT_CONVERSION_UNCOMPRESSED, …)`: the point at infinity is one zero byte, any other
point is `04`, `x`, `y` with 32 bytes each (`buf` has 65 bytes, `handshake.h:114-117`). -/
def point2oct (C : Group q) : C.Pt → List Byte
  | .zero => [0]
  | .some x y _ => 4 :: (be 32 x.val ++ be 32 y.val)

/-- `EC_POINT_oct2point` for 65 bytes: `04`, or the hybrid forms `06`/`07` whose low bit must be the parity of `y`;
coordinates below `q`; a point of the curve. Called in `protocol/handshake.h:138,162`. -/
def oct2point [Fact q.Prime] (C : Group q) (buf : List Byte) : Option C.Pt :=
  match buf with
  | [] => none
  | f :: rest =>
    let x := unbe (rest.take 32)
    let y := unbe (rest.drop 32)
    if x < q ∧ y < q ∧ (f = 4 ∨ (f = 6 ∧ y % 2 = 0) ∨ (f = 7 ∧ y % 2 = 1)) then
      if h : C.W.Nonsingular (x : ZMod q) (y : ZMod q) then some (.some _ _ h) else none
    else none

/-- `compute_primus_VA`, `handshake.h:106-123`: the bytes sent and the point `Va`; `t` is the random scalar. -/
def primusVA [Fact q.Prime] (C : Group q) (G : C.Pt) (t : Nat) (Ts : C.Pt) : List Byte × C.Pt :=
  (point2oct C (t • G), t • Ts)

/-- `compute_client_VB`, `handshake.h:127-145`: `Ta_client`, `Tc`, `Vb` and the bytes left on the connection.  With fewer
than 65 bytes on it `recv_data` keeps waiting, which is reported as an error here. -/
def clientVB [Fact q.Prime] (C : Group q) (G : C.Pt) (tb : Nat) (net : List Byte) (Ts : C.Pt) :
    Res (C.Pt × C.Pt × C.Pt × List Byte) :=
  if net.length < 65 then .error (.error "recv_data: waiting for 65 bytes")
  else
    match oct2point C (net.take 65) with
    | none => .error (.error "error in converting oct to TA")
    | some Ta => .ok (Ta, Ta + tb • G, tb • Ts, net.drop 65)

/-- `EC_POINT_get_affine_coordinates` into fresh numbers, `handshake.h:174-179`: it fails for the point at infinity,
the failure is ignored and the numbers stay zero. -/
def affine (C : Group q) : C.Pt → Int × Int
  | .zero => (0, 0)
  | .some x y _ => (x.val, y.val)

/-- `compute_pms_offline` and `compute_pms_online` of both parties, `handshake.h:171-185`: the client is ALICE, its
point is `Vb`.  The bit length is `BN_num_bits(q)`, `handshake.h:94`. -/
def pms [Fact q.Prime] (ccrh : Block → Block) (C : Group q) (delta : Block) (K : Nat → Block) (s : Bool)
    (ra rb : E2F.Rand) (Va Vb : C.Pt) : Res (Int × Int) :=
  E2F.run ccrh q q.size delta K s ra rb (affine C Vb).1 (affine C Vb).2 (affine C Va).1 (affine C Va).2

/-- `reveal_pms` on ALICE's side, `post_record.h:56-70`: `t` is the number received, `old` the value of `pms` before,
which stays when the point is at infinity. -/
def revealPms [Fact q.Prime] (C : Group q) (G : C.Pt) (order : Nat) (Ta : C.Pt) (tb t : Nat) (Ts : C.Pt) (old : Int) :
    Res Int :=
  if t • G ≠ Ta then .error (.error "Ta is not consistent!")
  else
    match ((t + tb) % order) • Ts with
    | .zero => .ok old
    | .some x _ _ => .ok x.val

/-! ### The object: where the scalars are kept -/

/-- The members `ta_primus`, `tb_client`, `Ta_client` of `HandShake`, `handshake.h:53-58`, after the constructor, `handshake.h:85-90`: `BN_new` gives 0,
`EC_POINT_new` the point at infinity. -/
structure Obj (C : Group q) where
  ta : Nat := 0
  tb : Nat := 0
  Ta : C.Pt := 0

/-- `compute_primus_VA(Va, Ts)`, `handshake.h:102-104`: the drawn scalar is kept. -/
def Obj.primus [Fact q.Prime] {C : Group q} (o : Obj C) (G : C.Pt) (t : Nat) (Ts : C.Pt) : (List Byte × C.Pt) × Obj C :=
  (primusVA C G t Ts, { o with ta := t })

/-- `compute_primus_VA(Va, t, Ts)` with a number of the caller, `handshake.h:106-123`: the object stays as it is. -/
def Obj.primusArg [Fact q.Prime] {C : Group q} (o : Obj C) (G : C.Pt) (t : Nat) (Ts : C.Pt) : (List Byte × C.Pt) × Obj C :=
  (primusVA C G t Ts, o)

/-- `compute_client_VB(Tc, Vb, Ts)`, `handshake.h:127-145`: `Tc`, `Vb`, the rest of the bytes, the object. -/
def Obj.client [Fact q.Prime] {C : Group q} (o : Obj C) (G : C.Pt) (t : Nat) (net : List Byte) (Ts : C.Pt) : Res ((C.Pt × C.Pt × List Byte) × Obj C) := do
  let (Ta, Tc, Vb, net) ← clientVB C G t net Ts
  .ok ((Tc, Vb, net), { o with tb := t, Ta := Ta })

/-- `compute_client_VB(Tc, Vb, t, Ts)` with a number of the caller, `handshake.h:147-168`: point and number are not kept in the object. -/
def Obj.clientArg [Fact q.Prime] {C : Group q} (o : Obj C) (G : C.Pt) (t : Nat) (net : List Byte) (Ts : C.Pt) : Res ((C.Pt × C.Pt × List Byte) × Obj C) := do
  let (_, Tc, Vb, net) ← clientVB C G t net Ts
  .ok ((Tc, Vb, net), o)

/-- `reveal_pms` of both parties, `post_record.h:52-73`: BOB (object `b`) sends its `ta_primus`, ALICE checks it with her object `a`. -/
def reveal [Fact q.Prime] {C : Group q} (G : C.Pt) (order : Nat) (b a : Obj C) (Ts : C.Pt) (old : Int) : Res Int :=
  revealPms C G order a.Ta a.tb b.ta Ts old

end Verif.Model.DH
