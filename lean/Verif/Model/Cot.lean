import Verif.Model.GC

/-! The buffer of correlated OTs behind the evaluator's inputs: `backend/primus_party.h:16-44`, `backend/primus_gen.h:27-63`,
`backend/primus_eva.h:25-61`.

Correlation number `id` of the (ideal) correlated OT gives the garbler the block `K id` and the evaluator a choice bit `r`
and the block `K id ^ r·Δ`; both parties take the numbers in order, as long as they ask for the same amounts.
A buffer cell is `none` before it is written; reading it, or a `memcpy` of a negative length, is undefined behaviour. -/

namespace Verif.Model.Cot
open Verif.Model Verif.Model.GC

/-- Garbler: `buf` holds correlation numbers (the block is `K id`).
`backend/primus_party.h:16-21`, `backend/primus_gen.h:27-30`. -/
structure Gen where
  batch : Nat
  top : Nat
  buf : List (Option Nat)
  pos : Nat

/-- Evaluator: `buf` and `buff` together hold the correlation number (the block is `K id ^ r·Δ`) and the choice bit.
`backend/primus_party.h:16-21`, `backend/primus_eva.h:25-29`. -/
structure Eva where
  batch : Nat
  top : Nat
  buf : List (Option (Nat × Bool))
  pos : Nat

/-- `memcpy(dst, buf + off, len)`. `backend/primus_gen.h:46-53`, `backend/primus_eva.h:41-51`. -/
def readRange {α : Type} (buf : List (Option α)) (off len : Nat) : Res (List α) :=
  if off + len ≤ buf.length then
    match ((buf.drop off).take len).mapM id with
    | some l => .ok l
    | none => .error (.ub "uninitialised buffer read")
  else .error (.ub "buffer overread")

/-- `refill`, `primus_gen.h:27-30`. -/
def Gen.refill (g : Gen) : Gen :=
  { g with buf := (List.range' g.pos g.batch).map some, pos := g.pos + g.batch, top := 0 }

/-- `refill`, `primus_eva.h:25-29`; the choice bits are random (`R`). -/
def Eva.refill (R : Nat → Bool) (e : Eva) : Eva :=
  { e with buf := (List.range' e.pos e.batch).map fun i => some (i, R i), pos := e.pos + e.batch, top := 0 }

/-- Constructor: default batch size, then `refill`, `primus_party.h:24-35`, `primus_gen.h:19`, `primus_eva.h:19`. -/
def Gen.init (batch : Nat) : Gen := Gen.refill ⟨batch, 0, List.replicate batch none, 0⟩
/-- `backend/primus_party.h:31-34`, `backend/primus_eva.h:19`. -/
def Eva.init (R : Nat → Bool) (batch : Nat) : Eva := Eva.refill R ⟨batch, 0, List.replicate batch none, 0⟩

/-- `set_batch_size`, `primus_party.h:36-44`: new uninitialised arrays; `top` and the correlations are not touched. -/
def Gen.setBatch (g : Gen) (n : Nat) : Gen := { g with batch := n, buf := List.replicate n none }
/-- `backend/primus_party.h:36-44`. -/
def Eva.setBatch (e : Eva) (n : Nat) : Eva := { e with batch := n, buf := List.replicate n none }

/-- Labels of the garbler for BOB's input before the correction, `primus_gen.h:40-55`; the flag tells whether a
correction message follows. -/
def Gen.take (g : Gen) (len : Nat) : Res (List Nat × Bool × Gen) :=
  if len > g.batch then .ok (List.range' g.pos len, false, { g with pos := g.pos + len })
  else if len + g.top > g.batch then
    if g.top > g.batch then .error (.ub "memcpy of negative length")
    else do
      let a ← readRange g.buf g.top (g.batch - g.top)
      let filled := g.batch - g.top
      let g := g.refill
      let b ← readRange g.buf 0 (len - filled)
      .ok (a ++ b, true, { g with top := len - filled })
  else do
    let a ← readRange g.buf g.top len
    .ok (a, true, { g with top := g.top + len })

/-- The evaluator, `primus_eva.h:35-53`: correlation numbers with choice bits. -/
def Eva.take (R : Nat → Bool) (e : Eva) (b : List Bool) : Res (List (Nat × Bool) × Bool × Eva) :=
  let len := b.length
  if len > e.batch then .ok (List.zip (List.range' e.pos len) b, false, { e with pos := e.pos + len })
  else if len + e.top > e.batch then
    if e.top > e.batch then .error (.ub "memcpy of negative length")
    else do
      let x ← readRange e.buf e.top (e.batch - e.top)
      let filled := e.batch - e.top
      let e := e.refill R
      let y ← readRange e.buf 0 (len - filled)
      .ok (x ++ y, true, { e with top := len - filled })
  else do
    let x ← readRange e.buf e.top len
    .ok (x, true, { e with top := e.top + len })

/-- Both parties. `backend/primus_gen.h:7`, `backend/primus_eva.h:7`. -/
structure Net where
  gen : Gen
  eva : Eva

/-- What one input gives: correlation numbers used by the garbler and by the evaluator, and the labels.
`backend/primus_gen.h:39-62`, `backend/primus_eva.h:34-60`. -/
structure Fed where
  genIds : List Nat
  evaIds : List Nat
  genLabels : List Block
  evaLabels : List Block

/-- `feed(label, BOB, b, length)` of both parties, `primus_gen.h:32-63`, `primus_eva.h:31-61`: without the buffer the
correlated OT already has the right choice bits; with it the evaluator sends `r ≠ b` and the garbler corrects. -/
def Net.feed (K : Nat → Block) (R : Nat → Bool) (delta : Block) (n : Net) (b : List Bool) : Res (Fed × Net) := do
  let (es, ec, e) ← n.eva.take R b
  let (gs, gc, g) ← n.gen.take b.length
  let el := es.map fun x => K x.1 ^^^ sel x.2 delta
  let tmp := List.zipWith (fun (x : Nat × Bool) c => x.2 != c) es b
  if gc ≠ ec then .error (.error "channel: parties out of step")
  let gl := if gc then List.zipWith (fun i t => if t then K i ^^^ delta else K i) gs tmp else gs.map K
  .ok (⟨gs, es.map (·.1), gl, el⟩, { gen := g, eva := e })

/-- A history of inputs. Calls of `feed`, `backend/primus_gen.h:32`, `backend/primus_eva.h:31`. -/
def Net.run (K : Nat → Block) (R : Nat → Bool) (delta : Block) : Net → List (List Bool) → Res (List Fed × Net)
  | n, [] => .ok ([], n)
  | n, b :: bs => do
    let (f, n) ← n.feed K R delta b
    let (fs, n) ← n.run K R delta bs
    .ok (f :: fs, n)

end Verif.Model.Cot
