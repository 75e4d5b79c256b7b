import Verif.Model.GC

/-! The offline/online backends: `backend/offline_hg_gen.h`, `backend/offline_hg_eva.h`, `backend/offline_primus_gen.h`,
`backend/offline_primus_eva.h`, `backend/online_hg_gen.h`, `backend/online_hg_eva.h`, `backend/online_primus_gen.h`,
`backend/online_primus_eva.h`, `backend/backend.h:34-48`.

The arbitrary label stream gives one label per input bit; both phases must make the same `feed` calls.  Programs, messages and the arbitrary functions are those of `Verif.Model.GC`.  Reading a wire that does not exist gives
the label of the public constant zero.  The oblivious transfer `ot->send` / `ot->recv` is the ideal functionality: the
receiver gets the message of its choice bit.  Reading a `std::vector` out of range is undefined behaviour. -/

namespace Verif.Model.GC
open Verif.Model
open Verif.Spec.Circuit (Party Op)

/-- `constant[]` of the garbler after `set_delta`, `offline_hg_gen.h:23-30`, `online_hg_gen.h:21-27`. -/
def genConst (E : Env) (delta : Block) (b : Bool) : Block := if b then E.const1 ^^^ delta else E.const0

/-- `constant[]` of the evaluator, `online_hg_eva.h:15-19`. -/
def evaConst (E : Env) (b : Bool) : Block := if b then E.const1 else E.const0

/-- Offline garbler, `offline_hg_gen.h:9-23`, `offline_primus_gen.h:8-21`. -/
structure OffGen where
  delta : Block
  gid : Nat := 0
  outLabels : List Block := []
  prgPos : Nat := 0
  wires : List Block := []

/-- Offline evaluator, `offline_hg_eva.h:9-14`, `offline_primus_eva.h:8-17`; its wires carry nothing. -/
structure OffEva where
  gid : Nat := 0
  gc : List Block := []
  pubValues : List Bool := []

/-- `backend/offline_hg_gen.h:9-16`, `backend/offline_primus_gen.h:8-13`,
`backend/offline_hg_eva.h:9-13`, `backend/offline_primus_eva.h:8-12`. -/
structure OffNet where
  gen : OffGen
  eva : OffEva := {}
  toEva : List Msg := []

/-- The label a `Bit` object holds and passes to `backend/offline_hg_gen.h:32-42`. -/
def OffGen.get (E : Env) (g : OffGen) (i : Nat) : Block := g.wires.getD i (genConst E g.delta false)
/-- A `Bit` object made from the result of `backend/offline_hg_gen.h:32-42` or
`backend/offline_primus_gen.h:22-24`. -/
def OffGen.push (g : OffGen) (b : Block) : OffGen := { g with wires := g.wires ++ [b] }

/-- The receiving loop of `OfflinePrimusEva::reveal`, `offline_primus_eva.h:20-28`. -/
def offRecvBits : Nat → List Msg → Res (List Bool × List Msg)
  | 0, q => .ok ([], q)
  | n + 1, q => do
    let (b, q) ← recvBit q
    let (bs, q) ← offRecvBits n q
    .ok (b :: bs, q)

/-- One operation of the offline phase.  `feed`: `offline_primus_gen.h:22-24` (both parties' inputs, values ignored),
`offline_primus_eva.h:18`; gates: `offline_hg_gen.h:30-42`, `offline_hg_eva.h:15-26`; `reveal`:
`offline_primus_gen.h:26-32`, `offline_primus_eva.h:20-28`. -/
def OffNet.step (E : Env) (n : OffNet) : Op → Res OffNet
  | .pub b => .ok { n with gen := n.gen.push (genConst E n.gen.delta b) }
  | .inA _ => .ok { n with gen := OffGen.push { n.gen with prgPos := n.gen.prgPos + 1 } (E.prg n.gen.prgPos) }
  | .inB _ => .ok { n with gen := OffGen.push { n.gen with prgPos := n.gen.prgPos + 1 } (E.prg n.gen.prgPos) }
  | .and i j => do
    let a := n.gen.get E i
    let b := n.gen.get E j
    let r := garble E a (a ^^^ n.gen.delta) b (b ^^^ n.gen.delta) n.gen.delta n.gen.gid
    let (t, q) ← recvTable (n.toEva ++ [.blk r.2.1, .blk r.2.2])
    .ok { gen := OffGen.push { n.gen with gid := n.gen.gid + 1, outLabels := n.gen.outLabels ++ [r.1] } r.1
          eva := { n.eva with gid := n.eva.gid + 1, gc := n.eva.gc ++ [t.1] ++ [t.2] }
          toEva := q }
  | .xor i j => .ok { n with gen := n.gen.push (n.gen.get E i ^^^ n.gen.get E j) }
  | .not i => .ok { n with gen := n.gen.push (n.gen.get E i ^^^ n.gen.delta) }
  | .reveal p ws =>
    if p = .pub then do
      let (bs, q) ← offRecvBits ws.length (n.toEva ++ ws.map fun i => .bit (lsb (n.gen.get E i)))
      .ok { n with eva := { n.eva with pubValues := n.eva.pubValues ++ bs }, toEva := q }
    else .ok n

/-- The members of `backend/offline_hg_gen.h:30-42`, `backend/offline_primus_gen.h:22-32`,
`backend/offline_hg_eva.h:15-26`, `backend/offline_primus_eva.h:18-28`, one call after the other.
-/
def OffNet.run (E : Env) (n : OffNet) : List Op → Res OffNet
  | [] => .ok n
  | op :: ops => do
    let n ← n.step E op
    n.run E ops

/-- Online garbler, `online_hg_gen.h:9-22`, `online_primus_gen.h:8-21`. -/
structure OnGen where
  delta : Block
  gid : Nat := 0
  outLabels : List Block
  prgPos : Nat := 0
  wires : List Block := []

/-- Online evaluator, `online_hg_eva.h:9-17`, `online_primus_eva.h:8-22`. -/
structure OnEva where
  gid : Nat := 0
  gc : List Block
  pubValues : List Bool
  revealCounter : Nat := 0
  wires : List Block := []

/-- `backend/online_hg_gen.h:9-15`, `backend/online_primus_gen.h:7-11`,
`backend/online_hg_eva.h:9-14`, `backend/online_primus_eva.h:7-13`. -/
structure OnNet where
  gen : OnGen
  eva : OnEva
  toEva : List Msg := []
  toGen : List Msg := []

/-- `sync_offline_online`, `backend/backend.h:34-48`: the label generator restarts from the same seed, `set_delta` is
applied again, tables, output labels and masks are copied. -/
def syncOnline (n : OffNet) : OnNet :=
  { gen := { delta := setDelta n.gen.delta, outLabels := n.gen.outLabels }
    eva := { gc := n.eva.gc, pubValues := n.eva.pubValues } }

/-- The label a `Bit` object holds and passes to `backend/online_hg_gen.h:28-30`. -/
def OnGen.get (E : Env) (g : OnGen) (i : Nat) : Block := g.wires.getD i (genConst E g.delta false)
/-- The label a `Bit` object holds and passes to `backend/online_hg_eva.h:20-28`. -/
def OnEva.get (E : Env) (e : OnEva) (i : Nat) : Block := e.wires.getD i (evaConst E false)
/-- A `Bit` object made from the result of `backend/online_hg_gen.h:28-30` or
`backend/online_primus_gen.h:23-40`. -/
def OnGen.push (g : OnGen) (b : Block) : OnGen := { g with wires := g.wires ++ [b] }
/-- A `Bit` object made from the result of `backend/online_hg_eva.h:20-28` or
`backend/online_primus_eva.h:23-28`. -/
def OnEva.push (e : OnEva) (b : Block) : OnEva := { e with wires := e.wires ++ [b] }

/-- `v[i]` on a `std::vector`.
As in `backend/online_hg_gen.h:28`, `backend/online_hg_eva.h:22-23`,
`backend/online_primus_eva.h:40`. -/
def vget {α : Type} (v : List α) (i : Nat) : Res α :=
  match v[i]? with
  | some x => .ok x
  | none => .error (.ub "vector index out of range")

/-- `recv_block(label, 1)`. `backend/online_primus_eva.h:25`. -/
def recvBlk : List Msg → Res (Block × List Msg)
  | .blk b :: q => .ok (b, q)
  | _ => .error (.error "channel: block expected")

/-- The loop of `OnlinePrimusEva::reveal`, `online_primus_eva.h:31-42`: bits, reveal counter, rest of the input, output. -/
def onEvaReveal (p : Party) (pv : List Bool) : Nat → List Block → List Msg →
    Res (List Bool × Nat × List Msg × List Msg)
  | c, [], q => .ok ([], c, q, [])
  | c, l :: ls, q =>
    match p with
    | .bob => do
      let (t, q) ← recvBit q
      let (bs, c, q, s) ← onEvaReveal p pv c ls q
      .ok ((t != lsb l) :: bs, c, q, s)
    | .alice => do
      let (bs, c, q, s) ← onEvaReveal p pv c ls q
      .ok (false :: bs, c, q, .bit (lsb l) :: s)
    | .pub => do
      let m ← vget pv c
      let (bs, c, q, s) ← onEvaReveal p pv (c + 1) ls q
      .ok ((m != lsb l) :: bs, c, q, s)

/-- The loop of `OnlinePrimusGen::reveal`, `online_primus_gen.h:44-54`, receiving part; for PUBLIC the bits are set
later. -/
def onGenReveal (p : Party) : List Block → List Msg → Res (List Bool × List Msg)
  | [], q => .ok ([], q)
  | l :: ls, q =>
    match p with
    | .alice => do
      let (t, q) ← recvBit q
      let (bs, q) ← onGenReveal p ls q
      .ok ((t != lsb l) :: bs, q)
    | _ => do
      let (bs, q) ← onGenReveal p ls q
      .ok (false :: bs, q)

/-- The public part, `online_primus_gen.h:55-69`: every block is selected by the received bit. -/
def onPublicCheck (E : Env) (delta : Block) (ls : List Block) (q : List Msg) : Res (List Bool × List Msg) := do
  let (b, q) ← recvBits q
  if b.length ≠ ls.length then .error (.error "channel: length")
  let (d, q) ← recvDig q
  if E.hash (List.zipWith (fun l b => if b then l ^^^ delta else l) ls b) ≠ d then
    .error (.error "Evaluator cheated in revealing msgs!")
  .ok (b, q)

/-- One operation of the online phase.  `feed`: `online_primus_gen.h:23-40`, `online_primus_eva.h:23-28`; gates:
`online_hg_gen.h:27-30`, `online_hg_eva.h:19-28`; `reveal`: `online_primus_gen.h:43-70`, `online_primus_eva.h:30-49`. -/
def OnNet.step (E : Env) (n : OnNet) : Op → Res (Option (Party × List Bool × List Bool) × OnNet)
  | .pub b => .ok (none, { n with gen := n.gen.push (genConst E n.gen.delta b), eva := n.eva.push (evaConst E b) })
  | .inA b => do
    let l := E.prg n.gen.prgPos
    let (x, q) ← recvBlk (n.toEva ++ [.blk (if b then l ^^^ n.gen.delta else l)])
    .ok (none, { n with gen := OnGen.push { n.gen with prgPos := n.gen.prgPos + 1 } l
                        eva := n.eva.push x
                        toEva := q })
  | .inB b =>
    let l := E.prg n.gen.prgPos
    let l2 := l ^^^ n.gen.delta
    .ok (none, { n with gen := OnGen.push { n.gen with prgPos := n.gen.prgPos + 1 } l
                        eva := n.eva.push (if b then l2 else l) })
  | .and i j => do
    let lg ← vget n.gen.outLabels n.gen.gid
    let t0 ← vget n.eva.gc (n.eva.gid * 2)
    let t1 ← vget n.eva.gc (n.eva.gid * 2 + 1)
    let le := evalGate E (n.eva.get E i) (n.eva.get E j) (t0, t1) n.eva.gid
    .ok (none, { n with gen := OnGen.push { n.gen with gid := n.gen.gid + 1 } lg
                        eva := OnEva.push { n.eva with gid := n.eva.gid + 1 } le })
  | .xor i j => .ok (none, { n with gen := n.gen.push (n.gen.get E i ^^^ n.gen.get E j)
                                    eva := n.eva.push (n.eva.get E i ^^^ n.eva.get E j) })
  | .not i => .ok (none, { n with gen := n.gen.push (n.gen.get E i ^^^ n.gen.delta)
                                  eva := n.eva.push (n.eva.get E i) })
  | .reveal p ws => do
    let gl := ws.map (n.gen.get E)
    let el := ws.map (n.eva.get E)
    let sent := if p = .bob then gl.map fun l => .bit (lsb l) else []
    let (eb, c, toEva, s) ← onEvaReveal p n.eva.pubValues n.eva.revealCounter el (n.toEva ++ sent)
    let toGen := n.toGen ++ s ++ (if p = .pub then [.bits eb, .dig (E.hash el)] else [])
    let (gb, toGen) ← onGenReveal p gl toGen
    let (gb, toGen) ← (if p = .pub then onPublicCheck E n.gen.delta gl toGen else .ok (gb, toGen))
    .ok (some (p, gb, eb), { n with eva := { n.eva with revealCounter := c }, toEva := toEva, toGen := toGen })

/-- The members of `backend/online_hg_gen.h:27-30`, `backend/online_primus_gen.h:23-70`,
`backend/online_hg_eva.h:19-28`, `backend/online_primus_eva.h:23-49`, one call after the other. -/
def OnNet.run (E : Env) (n : OnNet) : List Op → Res (List (Party × List Bool × List Bool) × OnNet)
  | [] => .ok ([], n)
  | op :: ops => do
    let (o, n) ← n.step E op
    let (os, n) ← n.run E ops
    .ok (o.toList ++ os, n)

end Verif.Model.GC
