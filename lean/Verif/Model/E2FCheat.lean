import Verif.Model.E2FParty

/-! `protocol/e2f.h` against a party that does not follow the protocol. -/

namespace Verif.Model.E2F
open Verif.Model

/-- What the other party sends in the three calls of `open` (`e2f.h:154`, `160`, `172`), as functions of everything it has received so far: the code sends
before it receives (`e2f.h:58-67`), so the other party may wait for the messages of the call. -/
structure Strategy where
  d12 : Int → Int → Int × Int
  d3 : Int → Int → Int → Int
  d4 : Int → Int → Int → Int → Int

/-- `compute_online` of one party, `e2f.h:133-186`, against a strategy: the messages it sends and how it ends. -/
def against (q : Nat) (alice : Bool) (p : Pre) (x y : Int) (s : Strategy) : List Int × Res Int :=
  let m := first q alice p x y
  let d := s.d12 m.1 m.2
  let m3 := second q p ((m.1 + d.1) % q)
  let w := (m3 + s.d3 m.1 m.2 m3) % q
  if w = 0 then ([m.1, m.2, m3], .error (.error "w is zero, invalid!"))
  else
    let m4 := third q p w ((m.2 + d.2) % q)
    ([m.1, m.2, m3, m4], .ok (final q alice p x ((m4 + s.d4 m.1 m.2 m3 m4) % q)))

/-- `compute_offline` of one party, `e2f.h:82-131`, when the other party has put the inputs `u` into the OLE (any five numbers) and got the outputs `o`;
the OLE is correct (C21, C77). -/
def offlineAgainst (q : Nat) (alice : Bool) (r : Rand) (u o : List Int) : Res Pre :=
  offline q r (List.zipWith (fun (p : Nat × Int) o => ((p.1 * p.2 : Int) - o) % q) ((if alice then aliceIn r else bobIn r).zip u) o)

/-- The party of the code as a strategy. `protocol/e2f.h:134-172`. -/
def Strategy.honest (q : Nat) (alice : Bool) (p : Pre) (x y : Int) : Strategy :=
  let a := first q alice p x y
  { d12 := fun _ _ => a
    d3 := fun m1 _ _ => second q p ((a.1 + m1) % q)
    d4 := fun m1 m2 m3 _ => third q p ((second q p ((a.1 + m1) % q) + m3) % q) ((a.2 + m2) % q) }

end Verif.Model.E2F
