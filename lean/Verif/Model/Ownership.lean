import Verif.Model.Integer

/-!
Model of the ownership of OpenSSL objects: the classes `UniqueBN`, `UniquePoint`, `UniqueGroup` and `UniqueCtx` of
`backend/bn_utils.h:133-176` and what the functions that use them allocate and free.

A pointer is a number that is never used twice.  Freeing a pointer that is not allocated is undefined behaviour.  Of a function
only the allocations, the smart pointers and the calls of functions that allocate are kept, in the order of the source; an
allocation always succeeds (the code does not test for `NULL`) and `error` is not taken.  The object `p_ole` or `p_e2f`
points to is counted with the members of the object that owns it.  Byte buffers (`new unsigned char[]`) are not modelled.
-/

namespace Verif.Model.Own
open Integer

/-- The OpenSSL types. Guarded by the classes of `backend/bn_utils.h:133-175`. -/
inductive Kind | bn | point | group | ctx
  deriving DecidableEq, Repr

/-- `live`: the objects that are allocated and not freed.
Not in the code: what OpenSSL has allocated for the calls in `backend/ole.h:21-36` and the like.
-/
structure Heap where
  next : Nat
  live : List (Nat × Kind)

/-- `BN_new`, `EC_POINT_new`, `EC_GROUP_new_by_curve_name`, `BN_CTX_new`.
As in `backend/ole.h:21-36`. -/
def Heap.new (h : Heap) (k : Kind) : Heap × Nat := (⟨h.next + 1, (h.next, k) :: h.live⟩, h.next)

/-- `BN_free`, `EC_POINT_free`, `EC_GROUP_free`, `BN_CTX_free` of a pointer that is not null.
Called by the destructors of `backend/bn_utils.h:135,146,157,168`. -/
def Heap.free (h : Heap) (k : Kind) (p : Nat) : Res Heap :=
  if (p, k) ∈ h.live then .ok { h with live := h.live.erase (p, k) } else .error (.ub "free of a dead object")

/-- A `UniqueBN`, `UniquePoint`, `UniqueGroup` or `UniqueCtx`. `backend/bn_utils.h:133-175`. -/
structure Guard where
  kind : Kind
  ptr : Option Nat

/-- The default constructors, `backend/bn_utils.h:137`, `148`, `159`, `170`. -/
def Guard.empty (k : Kind) : Guard := ⟨k, none⟩

/-- The constructors from a pointer, `backend/bn_utils.h:138`, `149`, `160`, `171`: those of `UniquePoint` and `UniqueCtx`
pass `nullptr` to the `unique_ptr`, not their argument. -/
def Guard.ctor : Kind → Nat → Guard
  | .bn, p => ⟨.bn, some p⟩
  | .point, _ => ⟨.point, none⟩
  | .group, p => ⟨.group, some p⟩
  | .ctx, _ => ⟨.ctx, none⟩

/-- The destructor of the `unique_ptr`. `backend/bn_utils.h:135,146,157,168`. -/
def Guard.drop (g : Guard) (h : Heap) : Res Heap :=
  match g.ptr with
  | some p => h.free g.kind p
  | none => .ok h

/-- `reset`, `backend/bn_utils.h:139-141`, `150-152`, `161-163`, `172-174`: the new pointer is kept, the old object freed. -/
def Guard.reset (g : Guard) (h : Heap) (p : Nat) : Res (Guard × Heap) := do
  let h ← g.drop h
  .ok (⟨g.kind, some p⟩, h)

/-- Destruction of several guards.
The ends of the scopes of the objects of `backend/bn_utils.h:133-175`. -/
def drops : List Guard → Heap → Res Heap
  | [], h => .ok h
  | g :: gs, h => do drops gs (← g.drop h)

/-- What the body of a function does.
The patterns used in `backend/ole.h:22-49`, `protocol/e2f.h:31-172`,
`protocol/handshake.h:78-185`, `protocol/com_conv.h:20-587`. -/
inductive Act
  /-- `X = K_new(); UniqueK p_X(X);` -/
  | ctor (k : Kind)
  /-- `UniqueK p_X; X = K_new(); p_X.reset(X);` with `p_X` local, also an element of a local vector -/
  | reset (k : Kind)
  /-- `X = K_new();` without a guard -/
  | raw (k : Kind)
  /-- `this->X = K_new(); p_X.reset(X);` where `p_X` is member number `i` -/
  | member (i : Nat)
  /-- a call of another function on the same object or on one whose members it leaves alone -/
  | call (body : List Act)

/-- The heap, the guards that are members of the object and those of the running function.
Members such as `backend/ole.h:13-20`, locals such as `protocol/e2f.h:92-131`. -/
structure St where
  heap : Heap
  members : List Guard
  locals : List Guard

mutual
/-- One action. The patterns used in `backend/ole.h:22-49`, `protocol/e2f.h:31-172`. -/
def run : Act → St → Res St
  | .ctor k, s =>
    let (h, p) := s.heap.new k
    .ok { s with heap := h, locals := Guard.ctor k p :: s.locals }
  | .reset k, s => do
    let (h, p) := s.heap.new k
    let (g, h) ← (Guard.empty k).reset h p
    .ok { s with heap := h, locals := g :: s.locals }
  | .raw k, s => .ok { s with heap := (s.heap.new k).1 }
  | .member i, s =>
    match s.members[i]? with
    | none => .error (.ub "no such member")
    | some g => do
      let (h, p) := s.heap.new g.kind
      let (g, h) ← g.reset h p
      .ok { s with heap := h, members := s.members.set i g }
  | .call body, s => do
    let s' ← runs body { s with locals := [] }
    let h ← drops s'.locals s'.heap
    .ok { s' with heap := h, locals := s.locals }
/-- The actions of a body, one after the other. Bodies such as `protocol/e2f.h:92-131`. -/
def runs : List Act → St → Res St
  | [], s => .ok s
  | a :: as, s => do runs as (← run a s)
end

/-- A class: its guards, in the order of the constructor's `reset`s, and what a method with given arguments does.
Classes such as `backend/ole.h:9-20`, `protocol/e2f.h:10-50`. -/
structure Cls (α : Type) where
  guards : List Kind
  method : α → List Act

/-- The constructor: every guard is reset to a new object.
Constructors such as `backend/ole.h:21-36`, `protocol/e2f.h:31-50`. -/
def Cls.construct {α : Type} (c : Cls α) (h : Heap) : Res St :=
  runs [.call ((List.range c.guards.length).map Act.member)] ⟨h, c.guards.map Guard.empty, []⟩

/-- The life of an object: constructor, calls, destructor.
Not in the code: a use of a class such as `backend/ole.h:9`. -/
def Cls.life {α : Type} (c : Cls α) (calls : List α) (h : Heap) : Res Heap := do
  let s ← c.construct h
  let s ← runs (calls.map fun x => .call (c.method x)) s
  drops s.members s.heap

/-! ### `backend/ole.h` and `protocol/e2f.h` -/

/-- `OLE::compute`, `backend/ole.h:45-49`. -/
def oleCompute : List Act := [.ctor .bn, .ctor .bn, .ctor .bn, .ctor .bn]

/-- The members of `OLE`, `backend/ole.h:23-34`: `ctx`, `q`, `exp`. -/
def oleGuards (bitLength : Nat) : List Kind := [.ctx, .bn] ++ List.replicate bitLength .bn

/-- `OLE`. `backend/ole.h:9-94`. -/
def ole (bitLength : Nat) : Cls Unit := ⟨oleGuards bitLength, fun _ => oleCompute⟩

/-- `E2F::open`, `protocol/e2f.h:56-57`. -/
def e2fOpen : List Act := [.ctor .bn]

/-- `E2F::compute_offline`, `protocol/e2f.h:92-120`. -/
def e2fOffline : List Act := List.replicate 5 (.reset .bn) ++ [.call oleCompute]

/-- `E2F::compute_online`, `protocol/e2f.h:134-172`. -/
def e2fOnline : List Act :=
  [.ctor .bn, .ctor .bn, .ctor .bn, .ctor .bn, .call e2fOpen, .call e2fOpen, .call e2fOpen]

/-- The members of `E2F`, `protocol/e2f.h:34-49`: those of `ole`, then `a`, `b`, `c`, `bp`, `cp`, `r`, `r2`. -/
def e2fGuards (bitLength : Nat) : List Kind := oleGuards bitLength ++ List.replicate 7 .bn

/-- The methods of `E2F`. `protocol/e2f.h:55,82,133`. -/
inductive E2FCall | openValues | offline | online

/-- `E2F`. `protocol/e2f.h:31-172`. -/
def e2f (bitLength : Nat) : Cls E2FCall :=
  ⟨e2fGuards bitLength, fun
    | .openValues => e2fOpen
    | .offline => e2fOffline
    | .online => e2fOnline⟩

/-! ### `protocol/handshake.h`, `protocol/post_record.h`, `protocol/prove_prf.h` -/

/-- The methods of `HandShake` that allocate. `protocol/handshake.h:102,106,127,147,171,173`. -/
inductive HSCall | primusVA | clientVB | clientVBt | pmsOffline | pmsOnline

/-- `HandShake`: members `protocol/handshake.h:78-95` (`ctx`, `q`, `bn_pms`, `ta_primus`, `tb_client`, `Ta_client`, `Ts`, then
those of `e2f`); `compute_primus_VA` lines 109-110, `compute_client_VB` lines 129-130 and 150-156, `compute_pms_offline` line 170,
`compute_pms_online` lines 174-182. -/
def handShake (bitLength : Nat) : Cls HSCall :=
  ⟨[.ctx, .bn, .bn, .bn, .bn, .point, .point] ++ e2fGuards bitLength, fun
    | .primusVA => [.ctor .point]
    | .clientVB => [.ctor .point]
    | .clientVBt => [.ctor .point, .ctor .point]
    | .pmsOffline => [.call e2fOffline]
    | .pmsOnline => [.ctor .bn, .ctor .bn, .call e2fOnline]⟩

/-- `HandShakeOffline`, `protocol/handshake.h:554-557`. -/
def handShakeOffline : Cls Empty := ⟨[.bn, .ctx], fun x => nomatch x⟩

/-- `PostRecord`, `protocol/post_record.h:45-46`; `reveal_pms`, lines 52-73: `true` for BOB, who only sends. -/
def postRecord : Cls Bool := ⟨[.bn], fun bob => if bob then [] else [.ctor .bn, .ctor .point]⟩

/-- `PRFProver`, `protocol/prove_prf.h:32-40`. -/
def prfProver : Cls Empty := ⟨[.bn, .ctx, .group], fun x => nomatch x⟩

/-! ### `protocol/com_conv.h` -/

/-- `open_check`, `protocol/com_conv.h:37-38`. -/
def openCheck : List Act := [.ctor .point]

/-- `linear_comb_com`, `protocol/com_conv.h:50-51`. -/
def linearCombCom : List Act := [.ctor .point]

/-- `linear_comb_rand`, `protocol/com_conv.h:63-64`. -/
def linearCombRand : List Act := [.ctor .bn]

/-- The methods of `PedersenComm`. `protocol/com_conv.h:26-75`. -/
inductive PCCall | commit | openCheck | linearCombCom | linearCombRand

/-- `PedersenComm`, `protocol/com_conv.h:20-24`; `commit`, lines 31-34, allocates nothing. -/
def pedersen : Cls PCCall :=
  ⟨[.ctx, .point], fun
    | .commit => []
    | .openCheck => openCheck
    | .linearCombCom => linearCombCom
    | .linearCombRand => linearCombRand⟩

/-- `chunk_len`, `protocol/com_conv.h:320`, `469`. -/
def chunkLen (n bs : Nat) : Nat := (n + bs - 1) / bs

/-- `n` elements of a local vector. As in `protocol/com_conv.h:157-161`. -/
def vec (n : Nat) : List Act := List.replicate n (.reset .bn)

/-- `commitDelta(aDelta)` of the sender, `protocol/com_conv.h:141-142`; member 0 is `p_aDelta`. -/
def commitDelta : List Act := [.member 0]

/-- `convert_recv`, `protocol/com_conv.h:157-161`, and `convert_send`, lines 180-183. -/
def convert (n : Nat) : List Act := vec n

/-- `open(bMACs)`, `protocol/com_conv.h:216-239`. -/
def openMacs (n : Nat) : List Act :=
  .ctor .bn :: (List.replicate n [Act.reset .bn, Act.reset .bn]).flatten

/-- `mask_mac`, `protocol/com_conv.h:255-262`: the member `p_r` is not reset to the new `r`. -/
def maskMac : List Act := [.raw .bn, .call oleCompute]

/-- `mask_key`, `protocol/com_conv.h:264-270`. -/
def maskKey : List Act := [.call oleCompute]

/-- `compute_com_send`, `protocol/com_conv.h:282-431`, with `n` keys and batches of `bs`. -/
def comSend (n bs : Nat) : List Act :=
  [.ctor .bn, .ctor .bn, .ctor .bn, .call commitDelta, .ctor .bn, .call maskKey]
    ++ vec n ++ [.call (convert n), .ctor .bn] ++ vec (chunkLen n bs)
    ++ [.ctor .point] ++ vec (chunkLen n bs)
    ++ [.ctor .bn, .ctor .bn, .ctor .point, .call linearCombCom, .ctor .bn, .ctor .bn, .call openCheck, .ctor .bn]

/-- `compute_com_recv`, `protocol/com_conv.h:433-587`, with `n` MACs and batches of `bs`. -/
def comRecv (n bs : Nat) : List Act :=
  [.ctor .bn, .ctor .bn, .ctor .bn, .call maskMac]
    ++ vec n ++ [.call (convert n)] ++ (List.replicate (chunkLen n bs) [Act.reset .bn, Act.reset .bn]).flatten
    ++ [.ctor .bn, .ctor .point, .ctor .bn] ++ vec (chunkLen n bs)
    ++ [.ctor .bn, .ctor .bn, .ctor .bn, .ctor .bn, .call linearCombRand, .call linearCombRand, .call (openMacs n)]

/-- The methods of `ComConv`. `protocol/com_conv.h:282,433`. -/
inductive CCCall
  | send (n bs : Nat)
  | recv (n bs : Nat)

/-- What the methods do. `protocol/com_conv.h:135-587`. -/
def ccMethod : CCCall → List Act
  | .send n bs => comSend n bs
  | .recv n bs => comRecv n bs

/-- The members the constructor of `ComConv` allocates, `protocol/com_conv.h:100-115`: `q`, `ctx`, those of `ole`, `exp`;
`bits` is `BN_num_bits(q2)`. -/
def comConvGuards (bits : Nat) : List Kind := [.bn, .ctx] ++ oleGuards bits ++ List.replicate bits .bn

/-- The life of a `ComConv`: `p_aDelta` (member 0) and `p_r` (member 1), `protocol/com_conv.h:81`, `92`, are null after the
constructor, `protocol/com_conv.h:99-117`. -/
def comConvLife (bits : Nat) (calls : List CCCall) (h : Heap) : Res Heap := do
  let s ← runs [.call ((List.range (comConvGuards bits).length).map fun i => Act.member (i + 2))]
    ⟨h, Guard.empty .bn :: Guard.empty .bn :: (comConvGuards bits).map Guard.empty, []⟩
  let s ← runs (calls.map fun x => .call (ccMethod x)) s
  drops s.members s.heap

end Verif.Model.Own
