import Verif.Model.Switch

/-!
Several threads that call the functions of `backend/switch.h`.  In a build with `THREADING` the globals of `backend/switch.cpp` and
`cipher/utils.cpp` are `__thread` variables, one copy for each thread; without it all threads use the same.  The heap is shared in
both builds.

Simplified: a call is one step (in the `THREADING` build the calls of different threads have no variable in common except the heap
of the C++ library).  `circ_exec` and `prot_exec` of emp-tool are `__thread` in the same build.
-/

namespace Verif.Model.Switch

/-- The variables of `backend/switch.cpp:5-19`, `cipher/utils.cpp:4-8`, and `circ_exec`, `prot_exec`. -/
structure Globals where
  circ : Ptr
  prot : Ptr
  gcC : Ptr
  gcP : Ptr
  zkC : Ptr
  zkP : Ptr
  offC : Ptr
  offP : Ptr
  enableOffline : Bool
  ks : Ptr
  enc : Ptr
  deriving DecidableEq, Repr

/-- The heap and the variables of every thread, `backend/switch.cpp:13-19`. -/
structure Threads where
  heap : List (Nat × Kind)
  next : Nat
  vars : Nat → Globals

/-- What thread `i` sees. `backend/switch.cpp:4-20`. -/
def Threads.view (m : Threads) (i : Nat) : St where
  heap := m.heap
  next := m.next
  circ := (m.vars i).circ
  prot := (m.vars i).prot
  gcC := (m.vars i).gcC
  gcP := (m.vars i).gcP
  zkC := (m.vars i).zkC
  zkP := (m.vars i).zkP
  offC := (m.vars i).offC
  offP := (m.vars i).offP
  enableOffline := (m.vars i).enableOffline
  ks := (m.vars i).ks
  enc := (m.vars i).enc

/-- The variables of a thread after a call. `backend/switch.cpp:4-20`. -/
def Threads.put (m : Threads) (i : Nat) (s : St) : Threads where
  heap := s.heap
  next := s.next
  vars := fun j => if j = i then ⟨s.circ, s.prot, s.gcC, s.gcP, s.zkC, s.zkP, s.offC, s.offP, s.enableOffline, s.ks, s.enc⟩
    else m.vars j

/-- Program start, `backend/switch.cpp:5-11,13-19`. -/
def Threads.init : Threads := ⟨[], 0, fun _ => ⟨none, none, none, none, none, none, none, none, false, none, none⟩⟩

/-- A call made by thread `i`; without `THREADING` there is one copy of the variables.  `backend/switch.h:10-26,109-164`,
`cipher/utils.h:20-26`. -/
def tstep (threading : Bool) (i : Nat) (o : Op) (m : Threads) : Res Threads :=
  let j := if threading then i else 0
  (step o (m.view j)).map (m.put j)

/-- Calls of several threads in the order in which they happen.
Not in the code: a program with threads that call the functions of `backend/switch.h:109-164`. -/
def trun (threading : Bool) : List (Nat × Op) → Threads → Res Threads
  | [], m => .ok m
  | (i, o) :: w, m => do
    let m ← tstep threading i o m
    trun threading w m

/-- The calls of one thread.
Not in the code: the part of a schedule that belongs to a thread that calls `backend/switch.h:109-164`. -/
def callsOf (i : Nat) (w : List (Nat × Op)) : List Op := (w.filter (·.1 == i)).map (·.2)

end Verif.Model.Switch
