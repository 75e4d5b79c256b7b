import Verif.Model.E2F

/-! `protocol/e2f.h`: the parties of `compute_online` apart, with their messages.  `Verif.Model.E2F` runs both in lock step. -/

namespace Verif.Model.E2F
open Verif.Model

/-- The first two messages of a party, `e2f.h:134-152`: its shares of epsilon1 and epsilon2. -/
def first (q : Nat) (alice : Bool) (p : Pre) (x y : Int) : Int × Int :=
  let xbma := if alice then (q : Int) - x else x
  let ybma := if alice then (q : Int) - y else y
  ((xbma - p.b) % q, (ybma - p.bp) % q)

/-- The third message, `e2f.h:157-160`: its share of `w`, given the opened epsilon1. -/
def second (q : Nat) (p : Pre) (eps1 : Int) : Int := ((eps1 * p.a) % q + p.c) % q

/-- The last message, `e2f.h:165-172`: its share of epsilon3, given the opened `w` and epsilon2. -/
def third (q : Nat) (p : Pre) (w eps2 : Int) : Int :=
  (modInverse q w * (((eps2 * p.a) % q + p.cp) % q) % q - p.r) % q

/-- The output, `e2f.h:174-184`, given the opened epsilon3. -/
def final (q : Nat) (alice : Bool) (p : Pre) (x eps3 : Int) : Int :=
  let out := (eps3 * p.r) % q
  let out := (out + out) % q
  let out := (out + p.r2) % q
  let out := (out - x) % q
  let sq := if alice then 0 else (eps3 * eps3) % q
  (out + sq) % q

/-- Everything ALICE sends, everything BOB sends, and the result, `e2f.h:133-186`; an opened value is the own share plus the received one. -/
def talk (q : Nat) (pa pb : Pre) (xa ya xb yb : Int) : List Int × List Int × Res (Int × Int) :=
  let a := first q true pa xa ya
  let b := first q false pb xb yb
  let a3 := second q pa ((a.1 + b.1) % q)
  let b3 := second q pb ((b.1 + a.1) % q)
  let wA := (a3 + b3) % q
  let wB := (b3 + a3) % q
  if wA = 0 ∨ wB = 0 then ([a.1, a.2, a3], [b.1, b.2, b3], .error (.error "w is zero, invalid!"))
  else
    let a4 := third q pa wA ((a.2 + b.2) % q)
    let b4 := third q pb wB ((b.2 + a.2) % q)
    ([a.1, a.2, a3, a4], [b.1, b.2, b3, b4],
      .ok (final q true pa xa ((a4 + b4) % q), final q false pb xb ((b4 + a4) % q)))

end Verif.Model.E2F
