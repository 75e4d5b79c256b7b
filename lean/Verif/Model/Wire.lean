/-!
# What the two parties send and wait for

Two connections join the parties, `io` and `io_opt`.  Each party writes to them through a buffer: bytes leave the program when the
buffer is flushed.  A receive waits until the bytes are there; emp-tool's `NetIO` flushes the connection's own buffer first (the
parameter `auto`), but not the buffer of the other connection.

Simplified: a byte is a label saying what it belongs to; calls of emp-ot and emp-zk, made by both parties and working on `io`, are
one joint step (`meet`) before which `io` is flushed; a buffer is flushed only when told so, never because it is full (a full buffer
flushes earlier, which only makes bytes arrive sooner).
-/

namespace Verif.Model.Wire

/-- The members `io` and `io_opt`, `protocol/handshake.h:41-42`, `protocol/aead.h:16`. -/
inductive Chan where
  | io
  | opt
  deriving DecidableEq, Repr

/-- Calls of the libraries that both parties make: correlated, random and plain oblivious transfers (`backend/ole.h:53,77`,
`backend/ole_f2k.h:33,47`, `backend/online_primus_gen.h:38`), and work of the zero-knowledge backend up to `sync_zk_gc`
(`protocol/aead.h:81-84`). -/
inductive Meet where
  | cot (n : Nat)
  | rot (n : Nat)
  | ot (n : Nat)
  | zk (n : Nat)
  deriving DecidableEq, Repr

/-- A statement that has to do with the connections, such as `protocol/aead.h:290-292`; the label says what is sent or expected. -/
inductive Act where
  | send (c : Chan) (l : String) (n : Nat)
  | recv (c : Chan) (l : String) (n : Nat)
  | flush (c : Chan)
  | meet (m : Meet)
  deriving DecidableEq, Repr

/-- One party: what it still has to do, the bytes in its buffers and the bytes that arrived.  emp-tool's `NetIO`, as used in
`protocol/aead.h:290-299`. -/
structure Side where
  todo : List Act
  pend : Chan → List String
  inc : Chan → List String

/-- Change of one connection; as in `protocol/aead.h:290`. -/
def upd (f : Chan → List String) (c : Chan) (x : List String) : Chan → List String :=
  fun d => if d = c then x else f d

/-- `io->flush()`, `protocol/aead.h:291`. -/
def push (s t : Side) (c : Chan) : Side × Side :=
  ({ s with pend := upd s.pend c [] }, { t with inc := upd t.inc c (t.inc c ++ s.pend c) })

/-- What the party `s` can do next without the other: `none` while it waits.  `send_data`, `recv_data` and `flush` of emp-tool's
`NetIO`, as used in `protocol/aead.h:290-299`. -/
def act (auto : Bool) (s t : Side) : Option (Side × Side) :=
  match s.todo with
  | [] => none
  | .send c l n :: r => some ({ s with todo := r, pend := upd s.pend c (s.pend c ++ List.replicate n l) }, t)
  | .flush c :: r => some (push { s with todo := r } t c)
  | .recv c l n :: r =>
    if auto && !(s.pend c).isEmpty then some (push s t c)
    else if (s.inc c).take n = List.replicate n l then some ({ s with todo := r, inc := upd s.inc c ((s.inc c).drop n) }, t)
    else none
  | .meet _ :: _ => if !(s.pend .io).isEmpty then some (push s t .io) else none

/-- One step of one of the parties, or a joint one.  Two processes, `test/protocol.cpp:179-207`. -/
inductive Step (auto : Bool) : Side × Side → Side × Side → Prop
  | left {s t s' t' : Side} (h : act auto s t = some (s', t')) : Step auto (s, t) (s', t')
  | right {s t s' t' : Side} (h : act auto t s = some (t', s')) : Step auto (s, t) (s', t')
  | meet {s t : Side} {m : Meet} {a b : List Act} (hs : s.todo = .meet m :: a) (ht : t.todo = .meet m :: b)
      (ps : s.pend .io = []) (pt : t.pend .io = []) : Step auto (s, t) ({ s with todo := a }, { t with todo := b })

/-- A party at the beginning: nothing was sent, `test/protocol.cpp:179-190`. -/
def start (a : List Act) : Side := ⟨a, fun _ => [], fun _ => []⟩

/-- Everything was done, and everything sent was received.  End of `test/protocol.cpp:207`. -/
def Side.Done (s : Side) : Prop := s.todo = [] ∧ (∀ c, s.pend c = []) ∧ ∀ c, s.inc c = []

/-! ### Garbled circuits -/

/-- What an operation on `Integer`s asks of the backend: a gate with a table, an input, an opening of `n` bits of which `k` are not
constants.  `backend/opt_hg_gen.h:47`, `backend/primus_gen.h:32,66`. -/
inductive Ev where
  | and
  | feedA (n : Nat)
  | feedB (n : Nat)
  | openP (n k : Nat)
  | openA (n k : Nat)
  | openB (n k : Nat)
  deriving DecidableEq, Repr

/-- `n` statements `send_data(…, k)`; loops such as `backend/primus_gen.h:67-76`. -/
def sendN (c : Chan) (l : String) (n k : Nat) : List Act := List.replicate n (.send c l k)

/-- `n` statements `recv_data(…, k)`; loops such as `backend/primus_eva.h:64-73`. -/
def recvN (c : Chan) (l : String) (n k : Nat) : List Act := List.replicate n (.recv c l k)

/-- The garbler of the ordinary backend; `top` is the position in the buffer of `batch` correlations.
`backend/opt_hg_gen.h:47`, `backend/primus_gen.h:32-99`. -/
def genDirect (batch top : Nat) : Ev → List Act × Nat
  | .and => ([.send .io "table" 32], top)
  | .feedA _ => ([], top)
  | .feedB n =>
    if batch < n then ([.meet (.cot n)], top)
    else if batch - top < n then ([.meet (.cot batch), .recv .io "bits" n], n - (batch - top))
    else ([.recv .io "bits" n], top + n)
  | .openP n k => (sendN .io "lsb" k 1 ++ [.recv .io "opened" n, .recv .io "hash" 32], top)
  | .openA _ k => (recvN .io "lsb" k 1, top)
  | .openB _ k => (sendN .io "lsb" k 1, top)

/-- The evaluator of the ordinary backend.  `backend/opt_hg_eva.h:26`, `backend/primus_eva.h:31-86`. -/
def evaDirect (batch top : Nat) : Ev → List Act × Nat
  | .and => ([.recv .io "table" 32], top)
  | .feedA _ => ([], top)
  | .feedB n =>
    if batch < n then ([.meet (.cot n)], top)
    else if batch - top < n then ([.meet (.cot batch), .send .io "bits" n], n - (batch - top))
    else ([.send .io "bits" n], top + n)
  | .openP n k => (recvN .io "lsb" k 1 ++ [.send .io "opened" n, .send .io "hash" 32], top)
  | .openA _ k => (sendN .io "lsb" k 1, top)
  | .openB _ k => (recvN .io "lsb" k 1, top)

/-- The garbler of the online backend, `backend/online_primus_gen.h:24-70`. -/
def genOnline : Ev → List Act
  | .and => []
  | .feedA n => sendN .io "label" n 16
  | .feedB n => [.meet (.ot n)]
  | .openP n _ => [.recv .io "opened" n, .recv .io "hash" 32]
  | .openA n _ => recvN .io "lsb" n 1
  | .openB n _ => sendN .io "lsb" n 1

/-- The evaluator of the online backend, `backend/online_primus_eva.h:23-49`. -/
def evaOnline : Ev → List Act
  | .and => []
  | .feedA n => [.recv .io "label" (n * 16)]
  | .feedB n => [.meet (.ot n)]
  | .openP n _ => [.send .io "opened" n, .send .io "hash" 32]
  | .openA n _ => sendN .io "lsb" n 1
  | .openB n _ => recvN .io "lsb" n 1

/-- The garbler of the offline backend, `backend/offline_hg_gen.h:36`, `backend/offline_primus_gen.h:22-32`. -/
def genOffline : Ev → List Act
  | .and => [.send .io "table" 32]
  | .openP n _ => sendN .io "lsb" n 1
  | _ => []

/-- The evaluator of the offline backend, `backend/offline_hg_eva.h:19`, `backend/offline_primus_eva.h:18-29`. -/
def evaOffline : Ev → List Act
  | .and => [.recv .io "table" 32]
  | .openP n _ => recvN .io "lsb" n 1
  | _ => []

/-- The backends of `backend/switch.h:99-117`: the ordinary one with its batch size, or the online one. -/
inductive Mode where
  | direct (batch : Nat)
  | online
  deriving DecidableEq, Repr

/-- The statements of ALICE for a list of operations.  Calls of `backend/primus_gen.h:32-99` or `backend/online_primus_gen.h:24-70`. -/
def gen (m : Mode) (top : Nat) : List Ev → List Act × Nat
  | [] => ([], top)
  | e :: es =>
    match m with
    | .direct batch =>
      let (x, top) := genDirect batch top e
      let (y, top) := gen m top es
      (x ++ y, top)
    | .online =>
      let (y, top) := gen m top es
      (genOnline e ++ y, top)

/-- The statements of BOB for a list of operations.  Calls of `backend/primus_eva.h:31-86` or `backend/online_primus_eva.h:23-49`. -/
def eva (m : Mode) (top : Nat) : List Ev → List Act × Nat
  | [] => ([], top)
  | e :: es =>
    match m with
    | .direct batch =>
      let (x, top) := evaDirect batch top e
      let (y, top) := eva m top es
      (x ++ y, top)
    | .online =>
      let (y, top) := eva m top es
      (evaOnline e ++ y, top)

/-! ### The protocols -/

/-- Several `send_data`; as in `protocol/aead.h:443-444`. -/
def sends (c : Chan) (xs : List (String × Nat)) : List Act := xs.map fun x => .send c x.1 x.2

/-- Several `recv_data`; as in `protocol/aead.h:448-449`. -/
def recvs (c : Chan) (xs : List (String × Nat)) : List Act := xs.map fun x => .recv c x.1 x.2

/-- Length and bytes of a number, `backend/bn_utils.h:24-25,35-36`. -/
def bn (n : Nat) : List (String × Nat) := [("length", 4), ("number", n)]

/-- Length and bytes of several numbers; loops such as `protocol/e2f.h:59-60`. -/
def bns (ns : List Nat) : List (String × Nat) := ns.flatMap bn

/-- Sender of `OLE::compute`; `lens` are the lengths of the messages in bytes.  `backend/ole.h:53-69`. -/
def oleSend (bits : Nat) (lens : List (List Nat)) : List Act :=
  .meet (.cot (lens.length * bits)) :: lens.flatMap fun ls => sends .io (bns ls) ++ [.flush .io]

/-- Receiver of `OLE::compute`, `backend/ole.h:77-91`. -/
def oleRecv (bits : Nat) (lens : List (List Nat)) : List Act :=
  .meet (.cot (lens.length * bits)) :: lens.flatMap fun ls => recvs .io (bns ls)

/-- Sender of `OLEF2K::compute`, `backend/ole_f2k.h:33-40`. -/
def ole2kSend (n : Nat) : List Act :=
  .meet (.rot (n * 128)) :: (List.replicate n (sendN .io "ole" 128 16)).flatten

/-- Receiver of `OLEF2K::compute`, `backend/ole_f2k.h:47-58`. -/
def ole2kRecv (n : Nat) : List Act :=
  .meet (.rot (n * 128)) :: List.replicate n (.recv .io "ole" (128 * 16))

/-- `E2F::open` of ALICE; `xs` and `ys` are the lengths of the numbers of ALICE and BOB.  `protocol/e2f.h:58-65`. -/
def openAlice (xs ys : List Nat) : List Act := sends .io (bns xs) ++ .flush .io :: recvs .opt (bns ys)

/-- `E2F::open` of BOB, `protocol/e2f.h:66-74`. -/
def openBob (xs ys : List Nat) : List Act := sends .opt (bns ys) ++ .flush .opt :: recvs .io (bns xs)

/-- Blocks of the tag computation, `protocol/aead.h:181,259-260,284` and `protocol/aead.h:327,398-399,423`. -/
def tagBlocks (len aad : Nat) : Nat :=
  let u := 128 * ((len * 8 + 128 - 1) / 128) - len * 8
  let v := 128 * ((aad * 8 + 128 - 1) / 128) - aad * 8
  8 * (u / 8 + len + v / 8 + aad + 16) / 128

/-- Lengths of the numbers sent by `ComConv`: mask, converted keys, opening of the linear combination, `aDelta`, MAC; and the
number of chunks.  `protocol/com_conv.h:282-430`. -/
structure Conv where
  bits : Nat
  mask : List Nat
  msgs : List Nat
  chunks : Nat
  rndY : Nat
  msgY : Nat
  aDelta : Nat
  yMac : Nat
  deriving DecidableEq, Repr

/-- `compute_com_send`; `mask` is the OLE in its role.  `protocol/com_conv.h:140,187,209-211,343-350,393-412`. -/
def convSend (v : Conv) (mask : List Act) : List Act :=
  .send .io "com" 32 :: mask ++ sends .io (bns v.msgs) ++ recvN .io "point" v.chunks 65 ++
    [.recv .io "point r" 65, .recv .io "com y" 32] ++ recvs .io (bn v.rndY ++ bn v.msgY) ++
    sends .io ([("seed", 16), ("bDelta", 16)] ++ bn v.aDelta) ++ recvs .io (("seed y", 16) :: bn v.yMac)

/-- `compute_com_recv`.  `protocol/com_conv.h:146,160,218-220,512-518,576-584`. -/
def convRecv (v : Conv) (mask : List Act) : List Act :=
  .recv .io "com" 32 :: mask ++ recvs .io (bns v.msgs) ++ sendN .io "point" v.chunks 65 ++
    [.send .io "point r" 65, .send .io "com y" 32] ++ sends .io (bn v.rndY ++ bn v.msgY) ++
    recvs .io ([("seed", 16), ("bDelta", 16)] ++ bn v.aDelta) ++ sends .io (("seed y", 16) :: bn v.yMac)

/-- A call both parties make.  The lists of operations `es` and the lengths of numbers are arbitrary.
* `gates`: a function that computes with `Integer`s, `protocol/handshake.h:187-342`;
* `offline`: the same in the offline backend, `protocol/handshake.h:564-660`, `protocol/aead.h:548-643`;
* `zk`: a function of the proof phase, `protocol/post_record.h:70-153`;
* `dh`: `compute_primus_VA` and `compute_client_VB`, `protocol/handshake.h:118,136,160`;
* `pmsOffline`, `pmsOnline`: `protocol/e2f.h:82-187`;
* `aead`: the constructor, `protocol/aead.h:47-85`;
* `encrypt`, `decrypt`: `protocol/aead.h:169-305,309-491`;
* `revealPms`: `protocol/post_record.h:52-58`;
* `convert`: `protocol/com_conv.h:282-430,433-587`; BOB sends (`test/com_conv.cpp:56-67`), ALICE is the sender of the OLE if
  `aliceOle`. -/
inductive Call where
  | gates (es : List Ev)
  | offline (es : List Ev)
  | zk (n : Nat)
  | dh
  | pmsOffline (bits : Nat) (lens : List (List Nat))
  | pmsOnline (xs1 ys1 xs2 ys2 xs3 ys3 : List Nat)
  | aead (es : List Ev)
  | encrypt (es1 es2 : List Ev) (sec : Bool) (len aad : Nat)
  | decrypt (es1 es2 : List Ev) (sec : Bool) (len aad : Nat)
  | revealPms (n : Nat)
  | convert (aliceOle : Bool) (v : Conv)
  deriving DecidableEq, Repr

/-- The statements of ALICE in a call.  `es1` are the operations before the share of `z0` is committed, `es2` those after it.
`protocol/handshake.h:136`, `protocol/e2f.h:58-65`, `protocol/aead.h:61-84,197-251,295-299,434-449`, `protocol/post_record.h:58`. -/
def alice (m : Mode) (top : Nat) : Call → List Act × Nat
  | .gates es => gen m top es
  | .offline es => (es.flatMap genOffline, top)
  | .zk n => ([.meet (.zk n)], top)
  | .dh => ([.recv .io "Ta" 65], top)
  | .pmsOffline bits lens => (oleSend bits lens, top)
  | .pmsOnline xs1 ys1 xs2 ys2 xs3 ys3 => (openAlice xs1 ys1 ++ openAlice xs2 ys2 ++ openAlice xs3 ys3, top)
  | .aead es =>
    let (x, top) := gen m top es
    (x ++ ole2kSend 1 ++ [.send .io "rh" 16, .meet (.zk 128)], top)
  | .encrypt es1 es2 sec len aad =>
    let (x, top) := gen m top es1
    let (y, top) := gen m top es2
    (x ++ .meet (.zk 128) :: y ++
      (if sec then [.meet (.zk (8 * len)), .send .io "masked" len, .recv .io "ctxt" len] else []) ++
      ole2kSend (tagBlocks len aad) ++
      [.send .opt "tag A" 16, .flush .opt, .recv .io "tag B" 16], top)
  | .decrypt es1 es2 sec len aad =>
    let (x, top) := gen m top es1
    let (y, top) := gen m top es2
    (x ++ .meet (.zk 128) :: y ++
      (if sec then [.meet (.zk (8 * len)), .recv .io "z" len] else []) ++
      ole2kSend (tagBlocks len aad) ++
      [.send .io "com A" 32, .flush .io, .recv .opt "com B" 32] ++
      [.send .io "tag A" 16, .send .io "rnd A" 16, .flush .io, .recv .opt "tag B" 16, .recv .opt "rnd B" 16], top)
  | .revealPms n => (recvs .io (bn n), top)
  | .convert aliceOle v =>
    (convRecv v (if aliceOle then oleSend v.bits [v.mask] else oleRecv v.bits [v.mask]), top)

/-- The statements of BOB in a call.
`protocol/handshake.h:118`, `protocol/e2f.h:66-74`, `protocol/aead.h:71-84,197-256,288-293,456-475`, `protocol/post_record.h:54`. -/
def bob (m : Mode) (top : Nat) : Call → List Act × Nat
  | .gates es => eva m top es
  | .offline es => (es.flatMap evaOffline, top)
  | .zk n => ([.meet (.zk n)], top)
  | .dh => ([.send .io "Ta" 65], top)
  | .pmsOffline bits lens => (oleRecv bits lens, top)
  | .pmsOnline xs1 ys1 xs2 ys2 xs3 ys3 => (openBob xs1 ys1 ++ openBob xs2 ys2 ++ openBob xs3 ys3, top)
  | .aead es =>
    let (x, top) := eva m top es
    (x ++ ole2kRecv 1 ++ [.recv .io "rh" 16, .meet (.zk 128)], top)
  | .encrypt es1 es2 sec len aad =>
    let (x, top) := eva m top es1
    let (y, top) := eva m top es2
    (x ++ .meet (.zk 128) :: y ++
      (if sec then [.meet (.zk (8 * len)), .recv .io "masked" len, .send .io "ctxt" len] else []) ++
      ole2kRecv (tagBlocks len aad) ++
      [.send .io "tag B" 16, .flush .io, .recv .opt "tag A" 16], top)
  | .decrypt es1 es2 sec len aad =>
    let (x, top) := eva m top es1
    let (y, top) := eva m top es2
    (x ++ .meet (.zk 128) :: y ++
      (if sec then [.meet (.zk (8 * len)), .send .io "z" len] else []) ++
      ole2kRecv (tagBlocks len aad) ++
      [.send .opt "com B" 32, .flush .opt, .recv .io "com A" 32] ++
      [.send .opt "tag B" 16, .send .opt "rnd B" 16, .flush .opt, .recv .io "tag A" 16, .recv .io "rnd A" 16], top)
  | .revealPms n => (sends .io (bn n), top)
  | .convert aliceOle v =>
    (convSend v (if aliceOle then oleRecv v.bits [v.mask] else oleSend v.bits [v.mask]), top)

/-- ALICE's part of a session: the calls, and the last `sync_zk_gc`.  `test/protocol.cpp:30-150`. -/
def aliceAll (m : Mode) (top : Nat) : List Call → List Act
  | [] => [.meet (.zk 0)]
  | c :: cs => (alice m top c).1 ++ aliceAll m (alice m top c).2 cs

/-- BOB's part of a session.  `test/protocol.cpp:30-150`. -/
def bobAll (m : Mode) (top : Nat) : List Call → List Act
  | [] => [.meet (.zk 0)]
  | c :: cs => (bob m top c).1 ++ bobAll m (bob m top c).2 cs

end Verif.Model.Wire
