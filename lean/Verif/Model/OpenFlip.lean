import Verif.Model.OfflineGC

/-! An evaluator that follows the protocol except that it changes bits it sends when a value is opened to ALICE only
(`backend/primus_eva.h:74-77`, `backend/online_primus_eva.h:30-49`).  The garbler is the code as it is. -/

namespace Verif.Model.GC
open Verif.Model
open Verif.Spec.Circuit (Party Op)

/-- The bits sent in `reveal` for ALICE, `backend/primus_eva.h:64-79`, the `i`-th one changed if `f i`; nothing is sent for a label
of a constant. -/
def flipBits (f : Nat → Bool) : Nat → List Block → List Msg
  | _, [] => []
  | i, l :: ls => if isOne l || isZero l then flipBits f (i + 1) ls else .bit (lsb l != f i) :: flipBits f (i + 1) ls

/-- One operation of the ordinary backend; the receiving part of the garbler is `backend/primus_gen.h:67-83`. -/
def Net.stepFlip (E : Env) (f : Nat → Bool) (n : Net) : Op → Res (Option (Party × List Bool × List Bool) × Net)
  | .reveal .alice ws => do
    let (gb, toGen) ← genRevealLoop .alice (ws.map n.gen.get) (n.toGen ++ flipBits f 0 (ws.map n.eva.get))
    .ok (some (.alice, gb, []), { n with toGen := toGen })
  | op => n.step E op

/-- A program; `k` numbers the operations.
One operation after the other; garbler `backend/primus_gen.h:32-98`, evaluator in place of
`backend/primus_eva.h:63-86`. -/
def Net.runFlip (E : Env) (F : Nat → Nat → Bool) : Nat → Net → List Op → Res (List (Party × List Bool × List Bool) × Net)
  | _, n, [] => .ok ([], n)
  | k, n, op :: ops => do
    let (o, n) ← n.stepFlip E (F k) op
    let (os, n) ← Net.runFlip E F (k + 1) n ops
    .ok (o.toList ++ os, n)

/-- The bits sent in `reveal` for ALICE by the online evaluator, `backend/online_primus_eva.h:30-49`, changed likewise: a bit is sent for
every label. -/
def onFlipBits (f : Nat → Bool) : Nat → List Block → List Msg
  | _, [] => []
  | i, l :: ls => .bit (lsb l != f i) :: onFlipBits f (i + 1) ls

/-- One operation of the online phase; the receiving part of the garbler is `backend/online_primus_gen.h:44-54`. -/
def OnNet.stepFlip (E : Env) (f : Nat → Bool) (n : OnNet) : Op → Res (Option (Party × List Bool × List Bool) × OnNet)
  | .reveal .alice ws => do
    let (gb, toGen) ← onGenReveal .alice (ws.map (n.gen.get E)) (n.toGen ++ onFlipBits f 0 (ws.map (n.eva.get E)))
    .ok (some (.alice, gb, []), { n with toGen := toGen })
  | op => n.step E op

/-- One operation after the other; garbler `backend/online_primus_gen.h:23-70`, evaluator in place
of `backend/online_primus_eva.h:30-49`. -/
def OnNet.runFlip (E : Env) (F : Nat → Nat → Bool) : Nat → OnNet → List Op → Res (List (Party × List Bool × List Bool) × OnNet)
  | _, n, [] => .ok ([], n)
  | k, n, op :: ops => do
    let (o, n) ← n.stepFlip E (F k) op
    let (os, n) ← OnNet.runFlip E F (k + 1) n ops
    .ok (o.toList ++ os, n)

end Verif.Model.GC
