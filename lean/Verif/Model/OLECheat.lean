import Verif.Model.E2FParty

/-! A party of the oblivious linear evaluation that does not follow the protocol: `backend/ole.h:42-93`, `backend/ole_f2k.h:26-60`
and `protocol/e2f.h:82-186` run against it.  The other party runs the code. -/

namespace Verif.Model.OLE
open Verif.Model

/-- `compute` of the receiver, `ole.h:71-92`, with any choice bits in place of the bits of its inputs: `bits` has one function per element. -/
def recvChoice (h : Block → Int) (q : Int) (n : Nat) (M : Nat → Bool → Block) : Nat → List (Nat → Bool) → List Int → Res (List Int × List Int)
  | _, [], ms => .ok ([], ms)
  | i, c :: cs, ms => do
    let (o, ms) ← recvLoop h q ((slice n i).map fun p => (p.1, c p.1, M p.2 (c p.1))) ms 0
    let (os, ms) ← recvChoice h q n M (i + 1) cs ms
    .ok (o :: os, ms)

/-- `OLE::compute` of both parties, `ole.h:42-93`, where the party holding `Δ` sends `cheat` of the messages of the code. -/
def computeSent (cheat : List Int → List Int) (ccrh : Block → Block) (q : Int) (n : Nat) (delta : Block) (K : Nat → Block)
    (ins inr : List Int) : Res (List Int × List Int × List Int) := do
  let s := send (hashBn ccrh q) q n delta K 0 ins
  let (o, ms) ← recv (hashBn ccrh q) q n (fun k c => K k ^^^ (if c then delta else 0)) 0 inr (cheat s.2)
  .ok (s.1, o, ms)

/-- `OLEF2K::compute` of both parties, `ole_f2k.h:26-60`, where the sender sends `cheat` of the blocks of the code. -/
def f2kComputeSent (cheat : List Block → List Block) (raw0 raw1 : Nat → Block) (ins inr : List Block) :
    Res (List Block × List Block × List Block) := do
  let s := f2kSendAll raw0 raw1 0 ins
  let (o, q) ← f2kRecvAll (fun k c => if c then raw1 k else raw0 k) 0 inr (cheat s.2)
  .ok (s.1, o, q)

end Verif.Model.OLE

namespace Verif.Model.E2F
open Verif.Model

/-- `compute_offline` of both parties, `e2f.h:82-131`, where the party holding the offset sends `cheat` of the messages of the code. -/
def offlineSent (cheat : List Int → List Int) (ccrh : Block → Block) (q n : Nat) (delta : Block) (K : Nat → Block)
    (aliceSends : Bool) (ra rb : Rand) : Res (Pre × Pre) := do
  let ra := ra.reduce q
  let rb := rb.reduce q
  if aliceSends then
    let (oa, ob, _) ← OLE.computeSent cheat ccrh q n delta K ((aliceIn ra).map Int.ofNat) ((bobIn rb).map Int.ofNat)
    let pa ← offline q ra oa
    let pb ← offline q rb ob
    .ok (pa, pb)
  else
    let (ob, oa, _) ← OLE.computeSent cheat ccrh q n delta K ((bobIn rb).map Int.ofNat) ((aliceIn ra).map Int.ofNat)
    let pa ← offline q ra oa
    let pb ← offline q rb ob
    .ok (pa, pb)

/-- Both phases, `e2f.h:82-186`: the messages of ALICE and of BOB in the second phase, and the result. -/
def talkSent (cheat : List Int → List Int) (ccrh : Block → Block) (q n : Nat) (delta : Block) (K : Nat → Block)
    (aliceSends : Bool) (ra rb : Rand) (xa ya xb yb : Int) : Res (List Int × List Int × Res (Int × Int)) := do
  let (pa, pb) ← offlineSent cheat ccrh q n delta K aliceSends ra rb
  .ok (talk q pa pb xa ya xb yb)

/-- One message changed: `e` is added to message number `k`.
Not in the code: a deviation from `backend/ole.h:66`. -/
def addAt (k : Nat) (e : Int) (ms : List Int) : List Int := ms.modify k (· + e)

end Verif.Model.E2F
