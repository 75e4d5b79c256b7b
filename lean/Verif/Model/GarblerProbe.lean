import Verif.Model.GCParty
import Verif.Spec.OddGates

/-! A garbler of the offline/online backend that adds two blocks to the table of one gate. -/

namespace Verif.Model.GC
open Verif.Model
open Verif.Spec.Circuit (Party Op)

/-- The rows of gate `k` in the list of the evaluator (`offline_hg_eva.h:15-26`) with `u` and `v` added. -/
def probe (k : Nat) (u v : Block) (gc : List Block) : List Block :=
  gc.mapIdx fun n x => if n = k * 2 then x ^^^ u else if n = k * 2 + 1 then x ^^^ v else x

/-- The offline phase (`OffNet.step`) where the garbler adds `u` and `v` to the rows of gate `k` before they are sent (`offline_hg_gen.h:30-42`); the evaluator is
the one of the code. -/
def OffNet.stepProbe (E : Env) (k : Nat) (u v : Block) (n : OffNet) : Op → Res OffNet
  | .and i j => do
    let a := n.gen.get E i
    let b := n.gen.get E j
    let r := garble E a (a ^^^ n.gen.delta) b (b ^^^ n.gen.delta) n.gen.delta n.gen.gid
    let x := if n.gen.gid = k then r.2.1 ^^^ u else r.2.1
    let y := if n.gen.gid = k then r.2.2 ^^^ v else r.2.2
    let (t, q) ← recvTable (n.toEva ++ [.blk x, .blk y])
    .ok { gen := OffGen.push { n.gen with gid := n.gen.gid + 1, outLabels := n.gen.outLabels ++ [r.1] } r.1
          eva := { n.eva with gid := n.eva.gid + 1, gc := n.eva.gc ++ [t.1] ++ [t.2] }
          toEva := q }
  | op => n.step E op

/-- One operation after the other, in place of `backend/offline_hg_gen.h:32-39`,
`backend/offline_primus_gen.h:22-32`. -/
def OffNet.runProbe (E : Env) (k : Nat) (u v : Block) (n : OffNet) : List Op → Res OffNet
  | [] => .ok n
  | op :: ops => do
    let n ← n.stepProbe E k u v op
    n.runProbe E k u v ops

end Verif.Model.GC
