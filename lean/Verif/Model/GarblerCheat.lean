import Verif.Model.OfflineGC
import Verif.Spec.OddGates

/-! A garbler of the offline/online backend that does not send the tables of the code. -/

namespace Verif.Model.GC
open Verif.Model
open Verif.Spec.Circuit (Party Op Twist)

/-- In place of `garble_gate_garble_halfgates`, `backend/bn_utils.h:43-88`: `Delta` is added to table rows and output label, as `t` says. -/
def garbleAs (E : Env) (t : Twist) (LA0 A1 LB0 B1 delta : Block) (idx : Nat) : Block × (Block × Block) :=
  let r := garble E LA0 A1 LB0 B1 delta idx
  (r.1 ^^^ sel (((t.left && lsb LA0) ^^ (t.right && lsb LB0)) ^^ t.flip) delta, r.2.1 ^^^ sel t.left delta, r.2.2 ^^^ sel t.right delta)

/-- The offline phase (`OffNet.step`) with that garbler; the evaluator is the one of the code, `offline_hg_eva.h:15-26`. -/
def OffNet.stepAs (E : Env) (t : Nat → Twist) (n : OffNet) : Op → Res OffNet
  | .and i j => do
    let a := n.gen.get E i
    let b := n.gen.get E j
    let r := garbleAs E (t n.gen.gid) a (a ^^^ n.gen.delta) b (b ^^^ n.gen.delta) n.gen.delta n.gen.gid
    let (t, q) ← recvTable (n.toEva ++ [.blk r.2.1, .blk r.2.2])
    .ok { gen := OffGen.push { n.gen with gid := n.gen.gid + 1, outLabels := n.gen.outLabels ++ [r.1] } r.1
          eva := { n.eva with gid := n.eva.gid + 1, gc := n.eva.gc ++ [t.1] ++ [t.2] }
          toEva := q }
  | op => n.step E op

/-- One operation after the other, in place of `backend/offline_hg_gen.h:32-39`,
`backend/offline_primus_gen.h:22-32`. -/
def OffNet.runAs (E : Env) (t : Nat → Twist) (n : OffNet) : List Op → Res OffNet
  | [] => .ok n
  | op :: ops => do
    let n ← n.stepAs E t op
    n.runAs E t ops

end Verif.Model.GC
