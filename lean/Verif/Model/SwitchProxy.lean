import Verif.Model.Switch

/-! Life cycle of the proxy mode: `setup_proxy_protocol` and `finalize_proxy_protocol`, `protocol/prove_aes.h:14-45`, in programs that may also
call the functions of `backend/switch.h`.

External: `finalize_zk_bool` of emp-zk.  It finishes the zero-knowledge object behind `prot_exec`, deletes `circ_exec` and `prot_exec` and leaves
both pointers as they are.  The cheating flag it returns is the subject of the models of the checks, not of this one. -/

namespace Verif.Model.Switch

/-- `setup_proxy_protocol`, `protocol/prove_aes.h:14-38`: the state, and whether it threw.  Unlike `safe_setup_protocol` the handlers only
throw again: nothing is reset before, and nothing deleted or reset after a failure. -/
def proxySetup (fail : Option Point) (s : St) : St × Bool := setupFn .zk fail (initFiles s)

/-- `finalize_proxy_protocol`, `protocol/prove_aes.h:40-45`. -/
def proxyFinalize (s : St) : Res St :=
  if s.kind s.circ = some .zk ∧ s.kind s.prot = some .zk then do
    let s ← s.delete s.circ
    let s ← s.delete s.prot
    uninitFiles s
  else .error (.ub "finalize_zk_bool: not a zero-knowledge backend")

/-- The calls of a program that uses both modes.
`backend/switch.h:110,129,135,139,145,153`, `protocol/prove_aes.h:15,41`. -/
inductive POp where
  | base (o : Op)
  | setup (fail : Option Point)
  | finalize
  deriving DecidableEq, Repr

/-- One call; an exception of a setup function is caught by the caller.
`backend/switch.h:109-164`, `protocol/prove_aes.h:15-56`. -/
def pstep (o : POp) (s : St) : Res St :=
  match o with
  | .base o => step o s
  | .setup fail => .ok (proxySetup fail s).1
  | .finalize => proxyFinalize s

/-- A sequence of calls.
Not in the code: a program that calls the functions of `backend/switch.h:109-164`,
`protocol/prove_aes.h:15-56`. -/
def prun (l : List POp) (s : St) : Res St := l.foldlM (fun s o => pstep o s) s

end Verif.Model.Switch
