import Verif.Model.OfflineGC

/-! The two parties of the garbled-circuit backends as separate programs that read and write messages: `backend/opt_hg_gen.h`,
`backend/primus_gen.h`, `backend/opt_hg_eva.h`, `backend/primus_eva.h`, and `online_*` likewise.  `Verif.Model.GC` and `Verif.Model.OfflineGC` run
both in step; here each one has only its own state, its own inputs and what it receives. -/

namespace Verif.Model.GC
open Verif.Model
open Verif.Spec.Circuit (Party Op)

/-! ### Optimised backend -/

/-- The garbler until it waits for the evaluator: new state and messages sent.  `feed` `backend/primus_gen.h:32-63`, gates
`backend/opt_hg_gen.h:30-77`, `reveal` `backend/primus_gen.h:67-76`.  The inputs of BOB are not read. -/
def Gen.send (E : Env) (g : Gen) : Op → Gen × List Msg
  | .pub b => (g.push (publicLabel b), [])
  | .inA b => (Gen.push { g with prgPos := g.prgPos + 1 } (if b then E.prg g.prgPos ^^^ g.delta else E.prg g.prgPos), [])
  | .inB _ => (g, [])
  | .and i j => ((genAnd E g (g.get i) (g.get j)).2.1.push (genAnd E g (g.get i) (g.get j)).1, (genAnd E g (g.get i) (g.get j)).2.2)
  | .xor i j => (g.push (genXor E g.delta (g.get i) (g.get j)), [])
  | .not i => (g.push (genNot g.delta (g.get i)), [])
  | .reveal p ws => (g, genRevealSend p (ws.map g.get))

/-- The garbler after that: opened bits, state and rest of the input.  `feed` of BOB `backend/primus_gen.h:45-62`, `reveal`
`backend/primus_gen.h:67-97`. -/
def Gen.recv (E : Env) (g : Gen) : Op → List Msg → Res (Option (Party × List Bool) × Gen × List Msg)
  | .inB _, q => do
    let (d, q) ← recvBit q
    .ok (none, Gen.push { g with cotPos := g.cotPos + 1 } (if d then E.cotK g.cotPos ^^^ g.delta else E.cotK g.cotPos), q)
  | .reveal p ws, q => do
    let (gb, q) ← genRevealLoop p (ws.map g.get) q
    let (gb, q) ← (if p = .pub then genPublicCheck E g.delta (ws.map g.get) q else .ok (gb, q))
    .ok (some (p, gb), g, q)
  | _, q => .ok (none, g, q)

/-- The garbler alone, on the stream of messages it receives.
`backend/opt_hg_gen.h:36-77`, `backend/primus_gen.h:32-98`. -/
def Gen.run (E : Env) (g : Gen) : List Op → List Msg → Res (List (Party × List Bool) × Gen × List Msg)
  | [], q => .ok ([], g, q)
  | op :: ops, q => do
    let (o, g, q) ← (g.send E op).1.recv E op q
    let (os, g, q) ← g.run E ops q
    .ok (o.toList ++ os, g, q)

/-- The evaluator: opened bits, state, rest of the input, messages sent.  `cot` are the blocks of its correlated OTs, `r` its random choice
bits.  `feed` `backend/primus_eva.h:31-61`, gates `backend/opt_hg_eva.h:20-55`, `reveal` `backend/primus_eva.h:64-90`.  The inputs of
ALICE are not read. -/
def Eva.step (E : Env) (cot : Nat → Block) (r : Nat → Bool) (e : Eva) : Op → List Msg → Res (Option (List Bool) × Eva × List Msg × List Msg)
  | .pub b, q => .ok (none, e.push (publicLabel b), q, [])
  | .inA _, q => .ok (none, Eva.push { e with prgPos := e.prgPos + 1 } (E.prg e.prgPos), q, [])
  | .inB b, q => .ok (none, Eva.push { e with cotPos := e.cotPos + 1 } (cot e.cotPos), q, [.bit (r e.cotPos != b)])
  | .and i j, q => do
    let (le, e, q) ← evaAnd E e (e.get i) (e.get j) q
    .ok (none, e.push le, q, [])
  | .xor i j, q => .ok (none, e.push (evaXor E (e.get i) (e.get j)), q, [])
  | .not i, q => .ok (none, e.push (evaNot (e.get i)), q, [])
  | .reveal p ws, q => do
    let (eb, q, s) ← evaRevealLoop p (ws.map e.get) q
    .ok (some eb, e, q, s ++ (if p = .pub then [.bits eb, .dig (E.hash (ws.map e.get))] else []))

/-- The blocks the evaluator gets from the correlated OTs. `recv_cot`, `backend/primus_eva.h:27`. -/
def cotM (E : Env) (delta : Block) (i : Nat) : Block := E.cotK i ^^^ sel (E.cotR i) delta

/-- Both parties over two channels, with all messages to the garbler recorded.
`backend/primus_gen.h:32-98`, `backend/primus_eva.h:31-86`. -/
def Net.record (E : Env) (n : Net) : List Op → Res (List Msg × Net)
  | [] => .ok ([], n)
  | op :: ops => do
    let (_, e, q, s) ← n.eva.step E (cotM E n.gen.delta) E.cotR op (n.toEva ++ (n.gen.send E op).2)
    let (_, g, q') ← (n.gen.send E op).1.recv E op (n.toGen ++ s)
    let (l, n) ← Net.record E ⟨g, e, q, q'⟩ ops
    .ok (s ++ l, n)

/-- The evaluator alone, on the stream of messages it receives: opened bits, state, rest of the input, messages sent.
`backend/opt_hg_eva.h:21-55`, `backend/primus_eva.h:31-86`. -/
def Eva.run (E : Env) (cot : Nat → Block) (r : Nat → Bool) (e : Eva) : List Op → List Msg → Res (List (List Bool) × Eva × List Msg × List Msg)
  | [], q => .ok ([], e, q, [])
  | op :: ops, q => do
    let (o, e, q, s) ← e.step E cot r op q
    let (os, e, q, t) ← e.run E cot r ops q
    .ok (o.toList ++ os, e, q, s ++ t)

/-- Both parties over two channels, with all messages to the evaluator recorded.
`backend/primus_gen.h:32-98`, `backend/primus_eva.h:31-86`. -/
def Net.recordEva (E : Env) (n : Net) : List Op → Res (List Msg × Net)
  | [] => .ok ([], n)
  | op :: ops => do
    let (_, e, q, s) ← n.eva.step E (cotM E n.gen.delta) E.cotR op (n.toEva ++ (n.gen.send E op).2)
    let (_, g, q') ← (n.gen.send E op).1.recv E op (n.toGen ++ s)
    let (l, n') ← Net.recordEva E ⟨g, e, q, q'⟩ ops
    .ok ((n.gen.send E op).2 ++ l, n')

/-! ### Offline/online backend -/

/-- The online garbler until it waits: `feed` `online_primus_gen.h:23-40`, gates `online_hg_gen.h:27-30`, `reveal`
`online_primus_gen.h:43-54`.  The two labels of an input of BOB go into the oblivious transfer. -/
def OnGen.send (E : Env) (g : OnGen) : Op → Res (OnGen × List Msg)
  | .pub b => .ok (g.push (genConst E g.delta b), [])
  | .inA b => .ok (OnGen.push { g with prgPos := g.prgPos + 1 } (E.prg g.prgPos),
      [.blk (if b then E.prg g.prgPos ^^^ g.delta else E.prg g.prgPos)])
  | .inB _ => .ok (OnGen.push { g with prgPos := g.prgPos + 1 } (E.prg g.prgPos), [])
  | .and _ _ => do
    let lg ← vget g.outLabels g.gid
    .ok (OnGen.push { g with gid := g.gid + 1 } lg, [])
  | .xor i j => .ok (g.push (g.get E i ^^^ g.get E j), [])
  | .not i => .ok (g.push (g.get E i ^^^ g.delta), [])
  | .reveal p ws => .ok (g, if p = .bob then (ws.map (g.get E)).map fun l => .bit (lsb l) else [])

/-- The online garbler after that, `online_primus_gen.h:44-69`. -/
def OnGen.recv (E : Env) (g : OnGen) : Op → List Msg → Res (Option (Party × List Bool) × OnGen × List Msg)
  | .reveal p ws, q => do
    let (gb, q) ← onGenReveal p (ws.map (g.get E)) q
    let (gb, q) ← (if p = .pub then onPublicCheck E g.delta (ws.map (g.get E)) q else .ok (gb, q))
    .ok (some (p, gb), g, q)
  | _, q => .ok (none, g, q)

/-- `backend/online_hg_gen.h:27-30`, `backend/online_primus_gen.h:23-70`. -/
def OnGen.run (E : Env) (g : OnGen) : List Op → List Msg → Res (List (Party × List Bool) × OnGen × List Msg)
  | [], q => .ok ([], g, q)
  | op :: ops, q => do
    let (g, _) ← g.send E op
    let (o, g, q) ← g.recv E op q
    let (os, g, q) ← g.run E ops q
    .ok (o.toList ++ os, g, q)

/-- The online evaluator, `online_primus_eva.h:23-49`, `online_hg_eva.h:19-28`.  `ot` are the two labels the oblivious transfer chooses from. -/
def OnEva.step (E : Env) (ot : Block × Block) (e : OnEva) : Op → List Msg → Res (Option (List Bool) × OnEva × List Msg × List Msg)
  | .pub b, q => .ok (none, e.push (evaConst E b), q, [])
  | .inA _, q => do
    let (x, q) ← recvBlk q
    .ok (none, e.push x, q, [])
  | .inB b, q => .ok (none, e.push (if b then ot.2 else ot.1), q, [])
  | .and i j, q => do
    let t0 ← vget e.gc (e.gid * 2)
    let t1 ← vget e.gc (e.gid * 2 + 1)
    .ok (none, OnEva.push { e with gid := e.gid + 1 } (evalGate E (e.get E i) (e.get E j) (t0, t1) e.gid), q, [])
  | .xor i j, q => .ok (none, e.push (e.get E i ^^^ e.get E j), q, [])
  | .not i, q => .ok (none, e.push (e.get E i), q, [])
  | .reveal p ws, q => do
    let (eb, c, q, s) ← onEvaReveal p e.pubValues e.revealCounter (ws.map (e.get E)) q
    .ok (some eb, { e with revealCounter := c }, q, s ++ (if p = .pub then [.bits eb, .dig (E.hash (ws.map (e.get E)))] else []))

/-- Both parties of the online phase, with all messages to the garbler recorded.
`backend/online_primus_gen.h:23-70`, `backend/online_primus_eva.h:23-49`. -/
def OnNet.record (E : Env) (n : OnNet) : List Op → Res (List Msg × OnNet)
  | [] => .ok ([], n)
  | op :: ops => do
    let (g, m) ← n.gen.send E op
    let (_, e, q, s) ← n.eva.step E (E.prg n.gen.prgPos, E.prg n.gen.prgPos ^^^ n.gen.delta) op (n.toEva ++ m)
    let (_, g, q') ← g.recv E op (n.toGen ++ s)
    let (l, n) ← OnNet.record E ⟨g, e, q, q'⟩ ops
    .ok (s ++ l, n)

/-- What the evaluator gets out of the oblivious transfer in one operation, `online_primus_eva.h:24-27`. -/
def OnNet.chosen (E : Env) (n : OnNet) : Op → List Msg
  | .inB b => [.blk (if b then E.prg n.gen.prgPos ^^^ n.gen.delta else E.prg n.gen.prgPos)]
  | _ => []

/-- Both parties of the online phase, with everything recorded that the evaluator gets.
`backend/online_primus_gen.h:23-70`, `backend/online_primus_eva.h:23-49`. -/
def OnNet.recordEva (E : Env) (n : OnNet) : List Op → Res (List Msg × OnNet)
  | [] => .ok ([], n)
  | op :: ops => do
    let (g, m) ← n.gen.send E op
    let (_, e, q, s) ← n.eva.step E (E.prg n.gen.prgPos, E.prg n.gen.prgPos ^^^ n.gen.delta) op (n.toEva ++ m)
    let (_, g, q') ← g.recv E op (n.toGen ++ s)
    let (l, n') ← OnNet.recordEva E ⟨g, e, q, q'⟩ ops
    .ok (m ++ n.chosen E op ++ l, n')

/-- The online evaluator alone, with the result of the oblivious transfer among the messages.
`backend/online_hg_eva.h:19-28`, `backend/online_primus_eva.h:23-49`. -/
def OnEva.alone (E : Env) (e : OnEva) : Op → List Msg → Res (Option (List Bool) × OnEva × List Msg × List Msg)
  | .inB _, q => do
    let (x, q) ← recvBlk q
    .ok (none, e.push x, q, [])
  | op, q => e.step E (0, 0) op q

/-- `backend/online_hg_eva.h:19-28`, `backend/online_primus_eva.h:23-49`. -/
def OnEva.run (E : Env) (e : OnEva) : List Op → List Msg → Res (List (List Bool) × OnEva × List Msg × List Msg)
  | [], q => .ok ([], e, q, [])
  | op :: ops, q => do
    let (o, e, q, s) ← e.alone E op q
    let (os, e, q, t) ← e.run E ops q
    .ok (o.toList ++ os, e, q, s ++ t)

end Verif.Model.GC
