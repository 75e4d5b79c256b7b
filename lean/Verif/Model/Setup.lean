import Verif.Model.GCParty
import Verif.Model.Cot
import Verif.Model.VOPE

/-! How the two parties of the garbled-circuit backends come into being: the constructors `backend/opt_hg_gen.h:17-29`, `backend/opt_hg_eva.h:15-18`,
`backend/primus_party.h:24-35`, `backend/primus_gen.h:11-25`, `backend/primus_eva.h:12-23`, `backend/offline_hg_gen.h:17-28`,
`backend/offline_primus_gen.h:15-20`, `backend/online_hg_gen.h:16-26`, `backend/online_hg_eva.h:15-18`, `backend/online_primus_gen.h:12-21`,
`backend/online_primus_eva.h:14-21`, and `setup_backend`, `setup_offline_backend`, `setup_online_backend`, `sync_offline_online` of `backend/backend.h:19-79`.

`Verif.Model.GC` gives both parties one environment and one offset.  Here each party has only what its own constructors made: its own fix point, its own shared
seed, its own OT object; the runs `backendRun` and `onlineRun` use each party's own.  What a default-constructed generator (`PRG()`, `PRG tmp`) returns is an
argument.  The OT extension is ideal: after `setup_send` on one side and `setup_recv` on the other, correlation `i` gives the sender `cotK i` and
the receiver `cotK i ^ r·Delta` with the `Delta` of the sender's object.  `Delta` of an OT object is unset (`none`) until it is assigned. -/

namespace Verif.Model.Setup
open Verif.Model Verif.Model.GC
open Verif.Spec.Circuit (Party Op)

/-- Things outside the modelled code.  `prg k i` is block `i` of the generator with seed `k`; `fixKey` is emp-tool's `fix_key`.
`prp` in `backend/opt_hg_gen.h:13`, `sigma` in `backend/bn_utils.h:65-68`, `Hash` in
`backend/primus_gen.h:10`, `PRG` in `backend/opt_hg_gen.h:18-23`, `send_cot`/`recv_cot` in
`backend/primus_gen.h:28`, `backend/primus_eva.h:27`. -/
structure Prim where
  perm : Block → Block
  sigma : Block → Block
  hash : List Block → Nat
  prg : Block → Nat → Block
  fixKey : Block
  cotK : Nat → Block
  cotR : Nat → Bool

/-- Messages of the setup: the base OTs, an extension by `n` correlated OTs, a block.
`backend/primus_gen.h:17,28,23`, `backend/primus_eva.h:16,27,21`. -/
inductive Msg where
  | base
  | extend (n : Nat)
  | blk (b : Block)
deriving DecidableEq

/-- `setup_recv`, `backend/primus_eva.h:16`. -/
def recvBase : List Msg → Res (List Msg)
  | .base :: q => .ok q
  | _ => .error (.error "channel: base OT expected")

/-- `recv_cot`, `backend/primus_eva.h:27`. -/
def recvExtend (n : Nat) : List Msg → Res (List Msg)
  | .extend m :: q => if m = n then .ok q else .error (.error "channel: other number of OTs")
  | _ => .error (.error "channel: OT extension expected")

/-- `recv_block(&seed, 1)`, `backend/primus_eva.h:21`. -/
def recvBlock : List Msg → Res (Block × List Msg)
  | .blk b :: q => .ok (b, q)
  | _ => .error (.error "channel: block expected")

/-- The part of emp-ot's `IKNP` object that the code reads and writes.
Member `ot` of `backend/primus_party.h:12`; `Delta` is set in `backend/primus_gen.h:17`,
`backend/primus_eva.h:17`. -/
structure Ot where
  delta : Option Block := none

/-- `block_to_bool`, emp-tool: bit `j` of the block.
Called in `backend/primus_gen.h:16`, `backend/online_primus_gen.h:17`. -/
def blockToBool (b : Block) : Nat → Bool := fun j => b.getLsbD j

/-- `setup_send(bool*)`, emp-ot: `Delta = bool_to_block(delta_bool)`.
Called in `backend/primus_gen.h:17`, `backend/online_primus_gen.h:18`. -/
def Ot.setupSend (_ : Ot) (bits : Nat → Bool) : Ot := { delta := some (VOPE.boolToBlock bits) }

/-- The test by which the objects on top decide who sends, `protocol/aead.h:60`: `!cmpBlock(&ot->Delta, &zero_block, 1)`. -/
def Ot.sends (o : Ot) : Res Bool :=
  match o.delta with
  | some d => .ok (d != zeroB)
  | none => .error (.ub "uninitialised Delta")

/-- `batch_size`, `backend/primus_party.h:21`. -/
def batch : Nat := 1024 * 16

/-! ### The ordinary backend -/

/-- `OptHalfGateGen` with `PrimusGen`. `backend/opt_hg_gen.h:9-16`, `backend/primus_gen.h:7-10`. -/
structure Garbler where
  gc : Gen
  fixPoint : Block
  ot : Ot
  cot : Cot.Gen
  shared : Block

/-- `OptHalfGateEva` with `PrimusEva`. `backend/opt_hg_eva.h:9-14`, `backend/primus_eva.h:7-11`. -/
structure Evaluator where
  gc : Eva
  fixPoint : Block
  ot : Ot
  cot : Cot.Eva
  shared : Block

/-- ALICE in `setup_backend`, `backend/backend.h:68-72`: `OptHalfGateGen`, `backend/opt_hg_gen.h:17-29` (`a` is the block drawn for the offset, the member `seed`
drawn before it is never used), then `PrimusGen`, `backend/primus_gen.h:11-25` with the drawn block `seed`.  `inOt` is the optional argument. -/
def setupGen (P : Prim) (a seed : Block) (inOt : Option Ot) : Garbler × List Msg :=
  let gc : Gen := { delta := setDelta a }
  let (ot, m) := match inOt with
    | none => (Ot.setupSend {} (blockToBool gc.delta), [Msg.base])
    | some o => (o, [])
  ({ gc := gc, fixPoint := P.prg P.fixKey 0, ot := ot, cot := Cot.Gen.init batch, shared := seed },
    m ++ [.extend batch] ++ [.blk seed])

/-- BOB in `setup_backend`, `backend/backend.h:73-77`: `OptHalfGateEva`, `backend/opt_hg_eva.h:15-18`, then `PrimusEva`, `backend/primus_eva.h:12-23`. -/
def setupEva (P : Prim) (inOt : Option Ot) (q : List Msg) : Res (Evaluator × List Msg) := do
  let (ot, q) ← (match inOt with
    | none => do
      let q ← recvBase q
      .ok (({ delta := some zeroB } : Ot), q)
    | some o => .ok (o, q))
  let q ← recvExtend batch q
  let (seed, q) ← recvBlock q
  .ok ({ gc := {}, fixPoint := P.prg P.fixKey 0, ot := ot, cot := Cot.Eva.init P.cotR batch, shared := seed }, q)

/-- `setup_backend` of both parties, `backend/backend.h:66-79`; the rest of the channel is returned too. -/
def backend (P : Prim) (a seed : Block) (gOt eOt : Option Ot) : Res (Garbler × Evaluator × List Msg) := do
  let (g, m) := setupGen P a seed gOt
  let (e, q) ← setupEva P eOt m
  .ok (g, e, q)

/-- What the garbler works with.  The ordinary backend has no `constant[]`.
The members of `backend/opt_hg_gen.h:9-16` and `backend/primus_party.h:11-21`. -/
def Garbler.env (P : Prim) (g : Garbler) : Env :=
  { perm := P.perm, sigma := P.sigma, hash := P.hash, prg := P.prg g.shared, cotK := P.cotK, cotR := P.cotR, fixPoint := g.fixPoint, const0 := 0, const1 := 0 }

/-- What the evaluator works with; it has no `cotK`.
The members of `backend/opt_hg_eva.h:9-14` and `backend/primus_party.h:11-21`. -/
def Evaluator.env (P : Prim) (e : Evaluator) : Env :=
  { perm := P.perm, sigma := P.sigma, hash := P.hash, prg := P.prg e.shared, cotK := fun _ => 0, cotR := P.cotR, fixPoint := e.fixPoint, const0 := 0, const1 := 0 }

/-- What the evaluator gets from the correlated OT whose sender has the offset `D`.
`recv_cot`, `backend/primus_eva.h:27`. -/
def cotBlock (P : Prim) (D : Block) (i : Nat) : Block := P.cotK i ^^^ sel (P.cotR i) D

/-- The output of one operation, put together from those of the two parties.
Not in the code: pairs what `backend/primus_gen.h:66-98` and `backend/primus_eva.h:63-86` write to
`b`. -/
def join : Option (Party × List Bool) → Option (List Bool) → Option (Party × List Bool × List Bool)
  | some (p, a), some b => some (p, a, b)
  | _, _ => none

/-- A program run by both parties, each with its own environment, over two channels.  `cot` are the blocks of the evaluator's correlated OTs.
The members of `backend/primus_gen.h:32-98` and `backend/primus_eva.h:31-86`. -/
def netRun (Eg Ee : Env) (cot : Nat → Block) (n : Net) : List Op → Res (List (Party × List Bool × List Bool) × Net)
  | [] => .ok ([], n)
  | op :: ops => do
    let (eb, e, q, s) ← n.eva.step Ee cot Ee.cotR op (n.toEva ++ (n.gen.send Eg op).2)
    let (gb, g, q') ← (n.gen.send Eg op).1.recv Eg op (n.toGen ++ s)
    let (os, n) ← netRun Eg Ee cot ⟨g, e, q, q'⟩ ops
    .ok ((join gb eb).toList ++ os, n)

/-- `setup_backend` and then a program. `backend/backend.h:66-78`. -/
def backendRun (P : Prim) (a seed : Block) (gOt eOt : Option Ot) (ops : List Op) : Res (List (Party × List Bool × List Bool) × Net) := do
  let (g, e, _) ← backend P a seed gOt eOt
  match g.ot.delta with
  | none => .error (.ub "uninitialised Delta")
  | some D => netRun (g.env P) (e.env P) (cotBlock P D) { gen := g.gc, eva := e.gc } ops

/-! ### The offline/online backend -/

/-- `OfflineHalfGateGen` with `OfflinePrimusGen`: `constant[]` as in `set_delta`, `backend/offline_hg_gen.h:17-28`, `backend/offline_primus_gen.h:15-20`. -/
structure OffGarbler where
  gc : OffGen
  const : Block × Block
  seed : Block

/-- `OnlineHalfGateGen` with `OnlinePrimusGen`.
`backend/online_hg_gen.h:9-15`, `backend/online_primus_gen.h:7-11`. -/
structure OnGarbler where
  gc : OnGen
  const : Block × Block
  ot : Ot
  seed : Block

/-- `OnlineHalfGateEva` with `OnlinePrimusEva`.
`backend/online_hg_eva.h:9-14`, `backend/online_primus_eva.h:7-13`. -/
structure OnEvaluator where
  gc : OnEva
  const : Block × Block
  ot : Ot

/-- ALICE in `setup_offline_backend`, `backend/backend.h:20-24`. -/
def setupOffGen (P : Prim) (a seed : Block) : OffGarbler :=
  { gc := { delta := setDelta a }, const := (P.prg P.fixKey 0, P.prg P.fixKey 1 ^^^ setDelta a), seed := seed }

/-- ALICE in `setup_online_backend`, `backend/backend.h:53-56`: an offset `a` of its own, the OT for that one, `backend/online_hg_gen.h:16-26`,
`backend/online_primus_gen.h:12-20`; the member `prg` is seeded at random (`own`) until `set_seed`. -/
def setupOnGen (P : Prim) (a own : Block) : OnGarbler × List Msg :=
  ({ gc := { delta := setDelta a, outLabels := [] }, const := (P.prg P.fixKey 0, P.prg P.fixKey 1 ^^^ setDelta a),
     ot := Ot.setupSend {} (blockToBool (setDelta a)), seed := own }, [.base])

/-- BOB in `setup_online_backend`, `backend/backend.h:57-60`, `backend/online_hg_eva.h:15-18`, `backend/online_primus_eva.h:14-21`. -/
def setupOnEva (P : Prim) (q : List Msg) : Res (OnEvaluator × List Msg) := do
  let q ← recvBase q
  .ok ({ gc := { gc := [], pubValues := [] }, const := (P.prg P.fixKey 0, P.prg P.fixKey 1), ot := { delta := some zeroB } }, q)

/-- `sync_offline_online` of ALICE, `backend/backend.h:36-41`: `set_seed` restarts the generator, `set_delta` computes `constant[]` again. -/
def syncGen (P : Prim) (f : OffGen) (seed : Block) (g : OnGarbler) : OnGarbler :=
  { g with seed := seed
           gc := { g.gc with delta := setDelta f.delta, outLabels := f.outLabels, prgPos := 0 }
           const := (P.prg P.fixKey 0, P.prg P.fixKey 1 ^^^ setDelta f.delta) }

/-- `sync_offline_online` of BOB, `backend/backend.h:42-47`. -/
def syncEva (f : OffEva) (e : OnEvaluator) : OnEvaluator :=
  { e with gc := { e.gc with gc := f.gc, pubValues := f.pubValues } }

/-- The environment of a garbler with these `constant[]` and this seed; `const1` of `Env` is without the offset.
The members of `backend/offline_hg_gen.h:11-16`, `backend/online_hg_gen.h:11-15` and the
generators `backend/offline_primus_gen.h:13`, `backend/online_primus_gen.h:10`. -/
def genEnv (P : Prim) (const : Block × Block) (delta seed : Block) : Env :=
  { perm := P.perm, sigma := P.sigma, hash := P.hash, prg := P.prg seed, cotK := P.cotK, cotR := P.cotR, fixPoint := 0,
    const0 := const.1, const1 := const.2 ^^^ delta }

/-- The environment of the online evaluator; it has no label generator that is ever used.
The members of `backend/online_hg_eva.h:11-14`, `backend/online_primus_eva.h:9-13`. -/
def OnEvaluator.env (P : Prim) (e : OnEvaluator) : Env :=
  { perm := P.perm, sigma := P.sigma, hash := P.hash, prg := fun _ => 0, cotK := fun _ => 0, cotR := P.cotR, fixPoint := 0,
    const0 := e.const.1, const1 := e.const.2 }

/-- The online phase of both parties, each with its own environment.
The members of `backend/online_primus_gen.h:23-70`, `backend/online_primus_eva.h:23-49`. -/
def onRun (Eg Ee : Env) (n : OnNet) : List Op → Res (List (Party × List Bool × List Bool) × OnNet)
  | [] => .ok ([], n)
  | op :: ops => do
    let (g, m) ← n.gen.send Eg op
    let (eb, e, q, s) ← n.eva.step Ee (Eg.prg n.gen.prgPos, Eg.prg n.gen.prgPos ^^^ n.gen.delta) op (n.toEva ++ m)
    let (gb, g, q') ← g.recv Eg op (n.toGen ++ s)
    let (os, n) ← onRun Eg Ee ⟨g, e, q, q'⟩ ops
    .ok ((join gb eb).toList ++ os, n)

/-- What the two parties are after the offline phase, `setup_online_backend` and `sync_offline_online`: `a`, `seed` are the draws of the offline constructors,
`a'`, `own` those of the online ones, `ops` is the program of the offline phase.
`backend/switch.h:120-124,145-151`, `backend/backend.h:20-63`. -/
def online (P : Prim) (a seed a' own : Block) (ops : List Op) : Res (OnGarbler × OnEvaluator × List Msg) := do
  let f := setupOffGen P a seed
  let n ← OffNet.run (genEnv P f.const f.gc.delta f.seed) { gen := f.gc } ops
  let (g, m) := setupOnGen P a' own
  let (e, q) ← setupOnEva P m
  .ok (syncGen P n.gen f.seed g, syncEva n.eva e, q)

/-- Offline phase on `ops`, online phase on `ops'`. `backend/switch.h:120-124,145-151`. -/
def onlineRun (P : Prim) (a seed a' own : Block) (ops ops' : List Op) : Res (List (Party × List Bool × List Bool) × OnNet) := do
  let (g, e, _) ← online P a seed a' own ops
  onRun (genEnv P g.const g.gc.delta g.seed) (e.env P) { gen := g.gc, eva := e.gc } ops'

end Verif.Model.Setup
