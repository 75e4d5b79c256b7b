import Verif.Model.Integer

/-!
Model of the life cycle of the backends: `backend/switch.h`, `backend/switch.cpp`, the setup functions of `backend/backend.h`
and `init_files` / `uninit_files` of `cipher/utils.cpp:19-32`.

An object is an identifier with its kind; `heap` lists the objects that are alive.  What the objects compute is the subject
of the other models.  A setup function can throw before it has set any pointer, or after it has set `circ_exec`
(construction of the protocol object).  Not modelled: failure of `init_files`, and the `USE_PRIMUS_EMP` variant of
`safe_setup_protocol` (same statements in `FunctionWrapperV3`, external).
-/

namespace Verif.Model.Switch

/-- `zk`: emp-zk; `gc`: `setup_backend`; `online`, `offline`: the two halves of the offline/online mode; `file`: a circuit.
Made in `backend/backend.h:20-31,52-63,67-78`, `backend/switch.h:113`, `cipher/utils.cpp:15-25`.
-/
inductive Kind where
  | zk | gc | online | offline | file
  deriving DecidableEq, Repr

/-- The globals of `backend/switch.cpp:5-10` and `circ_exec`, `prot_exec` of emp-tool. -/
abbrev Ptr := Option Nat

/-- The globals of `backend/switch.cpp:4-20`, `CircuitExecution::circ_exec`, `ProtocolExecution::prot_exec`, `aes_ks`,
`aes_enc_ks`, and the heap. -/
structure St where
  heap : List (Nat × Kind)
  next : Nat
  circ : Ptr
  prot : Ptr
  gcC : Ptr
  gcP : Ptr
  zkC : Ptr
  zkP : Ptr
  offC : Ptr
  offP : Ptr
  enableOffline : Bool
  ks : Ptr
  enc : Ptr
  deriving DecidableEq, Repr

/-- Program start: all globals null. `backend/switch.cpp:5-11`. -/
def init : St := ⟨[], 0, none, none, none, none, none, none, none, none, false, none, none⟩

/-- `new`. As in `backend/backend.h:22,24`. -/
def St.alloc (s : St) (k : Kind) : Nat × St := (s.next, { s with heap := (s.next, k) :: s.heap, next := s.next + 1 })

/-- `delete`: no effect on a null pointer, undefined for a dead object.
As in `backend/switch.h:34-39,154-160`. -/
def St.delete (s : St) : Ptr → Res St
  | none => .ok s
  | some i => if s.heap.any (·.1 == i) then .ok { s with heap := s.heap.eraseP (·.1 == i) }
              else .error (.ub "delete of a dangling pointer")

/-- The kind of the object a pointer refers to, if it is alive.
Not in the code: whether the object of a pointer of `backend/switch.cpp:5-10` is alive. -/
def St.kind (s : St) : Ptr → Option Kind
  | none => none
  | some i => (s.heap.find? (·.1 == i)).map (·.2)

/-- `reset_prot_ptr`, `backend/switch.h:28-31`. -/
def resetProt (s : St) : St := { s with circ := none, prot := none }

/-- `delete_prot_ptr`, `backend/switch.h:33-41`. -/
def deleteProt (s : St) : Res St := do
  let s ← s.delete s.circ
  let s ← s.delete s.prot
  .ok (resetProt s)

/-- The three backends of `setup_protocol`. `backend/switch.h:113,117,120,123`. -/
inductive Stage where
  | zk | gc | off
  deriving DecidableEq, Repr

/-- The `backup_*_ptr` functions, `backend/switch.h:43-66`. -/
def backup : Stage → St → St
  | .zk, s => { s with zkC := s.circ, zkP := s.prot }
  | .gc, s => { s with gcC := s.circ, gcP := s.prot }
  | .off, s => { s with offC := s.circ, offP := s.prot }

/-- The `reset_*_ptr` functions, `backend/switch.h:48-71`. -/
def resetBuf : Stage → St → St
  | .zk, s => { s with zkC := none, zkP := none }
  | .gc, s => { s with gcC := none, gcP := none }
  | .off, s => { s with offC := none, offP := none }

/-- Where a setup function throws: before or after `circ_exec` is set.
`backend/backend.h:22-24,54-56,69-71`. -/
inductive Point where
  | early | late
  deriving DecidableEq, Repr

/-- The setup functions, `backend/backend.h:19-31, 52-63, 67-78` and `setup_zk_bool`: the state, and whether it threw. -/
def setupFn (k : Kind) (fail : Option Point) (s : St) : St × Bool :=
  match fail with
  | some .early => (s, true)
  | some .late =>
    let (c, s) := s.alloc k
    ({ s with circ := some c }, true)
  | none =>
    let (c, s) := s.alloc k
    let s := { s with circ := some c }
    let (p, s) := s.alloc k
    ({ s with prot := some p }, false)

/-- `safe_setup_protocol`, `backend/switch.h:73-107`; the flag says that it threw. -/
def safeSetup (k : Kind) (g : Stage) (fail : Option Point) (s : St) : Res (St × Bool) :=
  let s := resetProt s
  match setupFn k fail s with
  | (s, false) => .ok (backup g s, false)
  | (s, true) => do
    let s ← deleteProt s
    .ok (resetBuf g s, true)

/-- `init_files`, `cipher/utils.cpp:19-27`. -/
def initFiles (s : St) : St :=
  let (a, s) := s.alloc .file
  let s := { s with ks := some a }
  let (b, s) := s.alloc .file
  { s with enc := some b }

/-- `uninit_files`, `cipher/utils.cpp:29-32`. -/
def uninitFiles (s : St) : Res St := do
  let s ← s.delete s.ks
  s.delete s.enc

/-- The failure of a stage.
Not in the code: where one of the calls of `backend/switch.h:113-124` throws. -/
def at? (fail : Option (Stage × Point)) (g : Stage) : Option Point :=
  match fail with
  | some (g', p) => if g' = g then some p else none
  | none => none

/-- `setup_protocol`, `backend/switch.h:109-127`. -/
def setup (offline : Bool) (fail : Option (Stage × Point)) (s : St) : Res (St × Bool) := do
  let s := initFiles s
  let (s, threw) ← safeSetup .zk .zk (at? fail .zk) s
  if threw then return (s, true)
  if !offline then
    let (s, threw) ← safeSetup .gc .gc (at? fail .gc) s
    if threw then return (s, true)
    return ({ s with enableOffline := offline }, false)
  else
    let (s, threw) ← safeSetup .online .gc (at? fail .gc) s
    if threw then return (s, true)
    let (s, threw) ← safeSetup .offline .off (at? fail .off) s
    if threw then return (s, true)
    return ({ s with enableOffline := offline }, false)

/-- `switch_to_zk`, `backend/switch.h:129-132`. -/
def toZk (s : St) : St := { s with circ := s.zkC, prot := s.zkP }

/-- `switch_to_gc`, `backend/switch.h:139-142`. -/
def toGc (s : St) : St := { s with circ := s.gcC, prot := s.gcP }

/-- `sync_zk_gc`, `backend/switch.h:134-137`: emp-zk uses `prot_exec` as a zero-knowledge object. -/
def sync (s : St) : Res St :=
  if s.kind s.prot = some .zk then .ok s else .error (.ub "sync_zk_bool: prot_exec is not a zero-knowledge backend")

/-- `switch_to_online`, `backend/switch.h:144-151`, with the accesses of `sync_offline_online`, `backend/backend.h:34-48` (the
protocol objects and, through their member `gc`, the circuit objects). -/
def toOnline (s : St) : Res St :=
  if s.kind s.offP = some .offline ∧ s.kind s.offC = some .offline ∧ s.kind s.gcP = some .online ∧ s.kind s.gcC = some .online
  then .ok (toGc s) else .error (.ub "sync_offline_online: not an offline and an online backend")

/-- Any operation on secret values: a virtual call through `circ_exec` and `prot_exec`.
Such as `backend/opt_hg_gen.h:36`. -/
def use (s : St) : Res St :=
  if (s.kind s.circ).isSome ∧ (s.kind s.prot).isSome then .ok s else .error (.ub "call through a dead backend")

/-- `finalize_protocol`, `backend/switch.h:153-164`. -/
def finalize (s : St) : Res St := do
  let s ← s.delete s.gcC
  let s ← s.delete s.gcP
  let s ← s.delete s.zkC
  let s ← s.delete s.zkP
  let s ← if s.enableOffline then do
      let s ← s.delete s.offC
      s.delete s.offP
    else .ok s
  uninitFiles s

/-- The calls of a program. `backend/switch.h:110,129,135,139,145,153`. -/
inductive Op where
  | setup (offline : Bool) (fail : Option (Stage × Point))
  | toZk | toGc | toOnline | sync | use | finalize
  deriving DecidableEq, Repr

/-- One call; an exception of `setup_protocol` is caught by the caller.
`backend/switch.h:109-164`. -/
def step (o : Op) (s : St) : Res St :=
  match o with
  | .setup off fail => (setup off fail s).map (·.1)
  | .toZk => .ok (toZk s)
  | .toGc => .ok (toGc s)
  | .toOnline => toOnline s
  | .sync => sync s
  | .use => use s
  | .finalize => finalize s

/-- A sequence of calls.
Not in the code: a program that calls the functions of `backend/switch.h:109-164`. -/
def run (l : List Op) (s : St) : Res St := l.foldlM (fun s o => step o s) s

end Verif.Model.Switch
