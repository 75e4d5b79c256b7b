import Verif.Model.GCParty
import Verif.Model.GarblerCheat

/-! A garbler of the ordinary backend that does not follow the code; the evaluator is the one of the code. -/

namespace Verif.Model.GC
open Verif.Model
open Verif.Spec.Circuit (Party Op Twist)

/-- What the garbler does: change of the table of every gate, and wires whose bit it sends wrongly at an opening.
Not in the code: deviations from `backend/opt_hg_gen.h:45-47` and `backend/primus_gen.h:73-75`. -/
structure Cheat where
  twist : Nat → Twist
  flip : Nat → Bool

/-- In place of `and_gate`, `backend/opt_hg_gen.h:36-50`: `garbleAs` for two secret wires. -/
def genAndAs (E : Env) (t : Nat → Twist) (g : Gen) (a b : Block) : Block × Gen × List Msg :=
  if isZero a || isZero b then (zeroB, g, [])
  else if isOne a then (b, g, [])
  else if isOne b then (a, g, [])
  else
    let r := garbleAs E (t g.gid) a (a ^^^ g.delta) b (b ^^^ g.delta) g.delta g.gid
    (r.1, { g with gid := g.gid + 1 }, [.blk r.2.1, .blk r.2.2])

/-- In place of the bits sent in `reveal`, `backend/primus_gen.h:67-76`; every label comes with its flip. -/
def genRevealSendAs (p : Party) (ls : List (Block × Bool)) : List Msg :=
  if p = .alice then [] else (ls.filter fun l => !isPublic l.1).map fun l => .bit (lsb l.1 ^^ l.2)

/-- The bits the evaluator sends back in a public opening, with the flips taken off.
`backend/primus_gen.h:85`. -/
def unflip (ls : List (Block × Bool)) (bs : List Bool) : List Bool :=
  List.zipWith (fun l b => b ^^ (!isPublic l.1 && l.2)) ls bs

/-- In place of `backend/primus_gen.h:84-97`: the digest of the evaluator is compared for the bits with the flips taken off. -/
def genPublicCheckAs (E : Env) (delta : Block) (ls : List (Block × Bool)) (q : List Msg) : Res (List Bool × List Msg) := do
  let (b, q) ← recvBits q
  if b.length ≠ ls.length then .error (.error "channel: length")
  let (d, q) ← recvDig q
  if E.hash (genOpenBlocks delta (ls.map (·.1)) (unflip ls b)) ≠ d then .error (.error "Evaluator cheated in revealing msgs!")
  .ok (unflip ls b, q)

/-- One operation (`Net.step`) with that garbler.
In place of `backend/opt_hg_gen.h:36-50`, `backend/primus_gen.h:66-98`; the evaluator is
`backend/opt_hg_eva.h:21-55`, `backend/primus_eva.h:31-86`. -/
def Net.stepAs (E : Env) (c : Cheat) (n : Net) : Op → Res (Option (Party × List Bool × List Bool) × Net)
  | .and i j => do
    let (lg, g, s) := genAndAs E c.twist n.gen (n.gen.get i) (n.gen.get j)
    let (le, e, q) ← evaAnd E n.eva (n.eva.get i) (n.eva.get j) (n.toEva ++ s)
    .ok (none, { n with gen := g.push lg, eva := e.push le, toEva := q })
  | .reveal p ws => do
    let gl := ws.map fun i => (n.gen.get i, c.flip i)
    let el := ws.map n.eva.get
    let (eb, toEva, s) ← evaRevealLoop p el (n.toEva ++ genRevealSendAs p gl)
    let toGen := n.toGen ++ s ++ (if p = .pub then [.bits eb, .dig (E.hash el)] else [])
    let (gb, toGen) ← genRevealLoop p (ws.map n.gen.get) toGen
    let (gb, toGen) ← (if p = .pub then genPublicCheckAs E n.gen.delta gl toGen else .ok (gb, toGen))
    .ok (some (p, gb, eb), { n with toEva := toEva, toGen := toGen })
  | op => n.step E op

/-- One operation after the other, with the evaluator of `backend/opt_hg_eva.h:21-55`,
`backend/primus_eva.h:31-86`. -/
def Net.runAs (E : Env) (c : Cheat) (n : Net) : List Op → Res (List (Party × List Bool × List Bool) × Net)
  | [] => .ok ([], n)
  | op :: ops => do
    let (o, n) ← n.stepAs E c op
    let (os, n) ← n.runAs E c ops
    .ok (o.toList ++ os, n)

/-- A table (in place of the one of `backend/bn_utils.h:43-88`) made of the label `A` of the first wire and the two labels of the second one, `B0` with
lowest bit 0 and `B1` with lowest bit 1. -/
def silentTable (E : Env) (A B0 B1 : Block) (idx : Nat) : Block × Block :=
  (E.h A (tweak1 idx) ^^^ E.h B0 (tweak2 idx), E.h B0 (tweak2 idx) ^^^ E.h B1 (tweak2 idx) ^^^ A)

end Verif.Model.GC
