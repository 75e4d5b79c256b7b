import Verif.Model.Wire
import Verif.Model.GC

/-!
What the parties of the ordinary backend send and wait for in a program of `Verif.Model.GC`, each according to its own labels.
Simplified: inputs of BOB are fed bit by bit.
-/

namespace Verif.Model.Wire
open Verif.Model Verif.Model.GC
open Verif.Spec.Circuit (Party)

/-- Labels of the garbler that are not constants, `backend/primus_gen.h:67-76`; of the evaluator, `backend/primus_eva.h:64-79`. -/
def secretCount (ls : List Block) : Nat := (ls.filter fun l => !isPublic l).length

/-- What an opening asks of the backend, `backend/primus_gen.h:66-98`, `backend/primus_eva.h:63-86`. -/
def openEv (p : Party) (ls : List Block) : Ev :=
  match p with
  | .pub => .openP ls.length (secretCount ls)
  | .alice => .openA ls.length (secretCount ls)
  | .bob => .openB ls.length (secretCount ls)

/-- What the garbler does in an operation: `and_gate` of `backend/opt_hg_gen.h:36-50` sends a table unless a label is a constant;
inputs and openings, `backend/primus_gen.h:32-98`. -/
def genEv (g : Gen) : Spec.Circuit.Op → List Ev
  | .and i j =>
    if isZero (g.get i) || isZero (g.get j) then []
    else if isOne (g.get i) then []
    else if isOne (g.get j) then []
    else [.and]
  | .inA _ => [.feedA 1]
  | .inB _ => [.feedB 1]
  | .reveal p ws => [openEv p (ws.map g.get)]
  | .pub _ | .xor _ _ | .not _ => []

/-- What the evaluator does in an operation: `and_gate` of `backend/opt_hg_eva.h:21-30`; inputs and openings,
`backend/primus_eva.h:31-86`. -/
def evaEv (e : Eva) : Spec.Circuit.Op → List Ev
  | .and i j => if isZero (e.get i) || isOne (e.get i) || isZero (e.get j) || isOne (e.get j) then [] else [.and]
  | .inA _ => [.feedA 1]
  | .inB _ => [.feedB 1]
  | .reveal p ws => [openEv p (ws.map e.get)]
  | .pub _ | .xor _ _ | .not _ => []

/-- The garbler in a program.  Calls of `backend/opt_hg_gen.h:36-77`, `backend/primus_gen.h:32-98`. -/
def genEvs (E : Env) (n : Net) : List Spec.Circuit.Op → List Ev
  | [] => []
  | op :: ops =>
    genEv n.gen op ++ match n.step E op with
      | .ok (_, n) => genEvs E n ops
      | .error _ => []

/-- The evaluator in a program.  Calls of `backend/opt_hg_eva.h:21-55`, `backend/primus_eva.h:31-86`. -/
def evaEvs (E : Env) (n : Net) : List Spec.Circuit.Op → List Ev
  | [] => []
  | op :: ops =>
    evaEv n.eva op ++ match n.step E op with
      | .ok (_, n) => evaEvs E n ops
      | .error _ => []

end Verif.Model.Wire
