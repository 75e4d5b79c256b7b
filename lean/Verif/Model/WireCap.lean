import Verif.Model.Wire

/-!
# Connections that hold only so many bytes

As `Verif.Model.Wire`, with two differences: a connection holds at most `cap` bytes that were sent and not yet read, and a party that
flushes waits while it is full (`send` of a socket blocks); bytes arrive and are read one by one.  The connections flush before they
receive.
-/

namespace Verif.Model.Wire

/-- One byte leaves the buffer of `c`, if the connection is not full.  Part of `io->flush()`, `protocol/aead.h:291`. -/
def moveByte (cap : Nat) (s t : Side) (c : Chan) : Option (Side × Side) :=
  match s.pend c with
  | [] => none
  | x :: xs =>
    if (t.inc c).length < cap then
      some ({ s with pend := upd s.pend c xs }, { t with inc := upd t.inc c (t.inc c ++ [x]) })
    else none

/-- What the party `s` can do next without the other: `none` while it waits.  `send_data`, `recv_data` and `flush` of emp-tool's
`NetIO` over a socket, as used in `protocol/aead.h:290-299`. -/
def actCap (cap : Nat) (s t : Side) : Option (Side × Side) :=
  match s.todo with
  | [] => none
  | .send c l n :: r => some ({ s with todo := r, pend := upd s.pend c (s.pend c ++ List.replicate n l) }, t)
  | .flush c :: r => if s.pend c = [] then some ({ s with todo := r }, t) else moveByte cap s t c
  | .recv c _ 0 :: r => if s.pend c = [] then some ({ s with todo := r }, t) else moveByte cap s t c
  | .recv c l (n + 1) :: r =>
    if s.pend c = [] then
      match s.inc c with
      | [] => none
      | x :: xs => if x = l then some ({ s with todo := .recv c l n :: r, inc := upd s.inc c xs }, t) else none
    else moveByte cap s t c
  | .meet _ :: _ => moveByte cap s t .io

/-- One step of one of the parties, or a joint one.  Two processes, `test/protocol.cpp:179-207`. -/
inductive StepCap (cap : Nat) : Side × Side → Side × Side → Prop
  | left {s t s' t' : Side} (h : actCap cap s t = some (s', t')) : StepCap cap (s, t) (s', t')
  | right {s t s' t' : Side} (h : actCap cap t s = some (t', s')) : StepCap cap (s, t) (s', t')
  | meet {s t : Side} {m : Meet} {a b : List Act} (hs : s.todo = .meet m :: a) (ht : t.todo = .meet m :: b)
      (ps : s.pend .io = []) (pt : t.pend .io = []) : StepCap cap (s, t) ({ s with todo := a }, { t with todo := b })

end Verif.Model.Wire
