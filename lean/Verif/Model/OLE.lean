import Verif.Model.Block
import Verif.Model.Integer

/-! Oblivious linear evaluation: `backend/bn_utils.h:8-17`, `backend/ole.h`, `backend/ole_f2k.h`.

A `BIGNUM` is an integer; the `BN_mod_*` functions return the non-negative residue.  `send_bn` / `recv_bn` carry a
non-negative integer unchanged (they are modelled in `Verif.Model.Bn`).  The correlated OT gives the sender `K k` and the
receiver `K k ^ c·Δ` for its choice bit `c`; the random OT gives the sender two blocks and the receiver the chosen one. -/

namespace Verif.Model.OLE
open Verif.Model

/-- The 32 bytes of `arr` in memory order read as a big-endian number, `bn_utils.h:15`: every block is stored
little-endian, so the bytes of each block are reversed. -/
def bytesOfBlock (b : Block) : List (BitVec 8) := (List.range 16).map fun i => (b >>> (8 * i)).setWidth 8

/-- `BN_bin2bn`, `backend/bn_utils.h:15`. -/
def bin2bn (bs : List (BitVec 8)) : Nat := bs.foldl (fun a b => 256 * a + b.toNat) 0

/-- `H`, `bn_utils.h:8-17`; `ccrh` is any function. -/
def hashBn (ccrh : Block → Block) (q : Int) (b : Block) : Int :=
  (bin2bn (bytesOfBlock (ccrh (b ^^^ 1#128)) ++ bytesOfBlock (ccrh (b ^^^ 2#128))) : Int) % q

/-- `exp[j]`, `ole.h:29-34`. -/
def exp (q : Int) (j : Nat) : Int := (2 ^ j : Int) % q

/-- Inner loop of the sender for one element, `ole.h:53-69`: `ks` are the correlations with their numbers `j`. -/
def sendLoop (h : Block → Int) (q : Int) (delta : Block) (x : Int) : List (Nat × Block) → Int → Int × List Int
  | [], out => (out, [])
  | (j, k) :: ks, out =>
    let pad1 := h k
    let pad2 := h (k ^^^ delta)
    let msg := pad1 + pad2
    let msg := (msg + x) % q
    let tmp := q - pad1
    let tmp := (exp q j * tmp) % q
    let out := (out + tmp) % q
    let r := sendLoop h q delta x ks out
    (r.1, msg :: r.2)

/-- Inner loop of the receiver, `ole.h:80-90`: numbers `j`, bits and correlations; every round reads one message. -/
def recvLoop (h : Block → Int) (q : Int) : List (Nat × Bool × Block) → List Int → Int → Res (Int × List Int)
  | [], ms, out => .ok (out, ms)
  | _ :: _, [], _ => .error (.error "channel: message expected")
  | (j, c, m) :: ks, tmp :: ms, out =>
    let msg := h m
    let msg := if c then tmp - msg else msg
    let tmp := (exp q j * msg) % q
    let out := (out + tmp) % q
    recvLoop h q ks ms out

/-- The correlations of element `i`: indices `i * bit_length + j`. As in `backend/ole.h:57,84`. -/
def slice (n i : Nat) : List (Nat × Nat) := (List.range n).map fun j => (j, i * n + j)

/-- `compute` of the sender, `ole.h:51-70`; `i` is the index of the first element of `xs`. -/
def send (h : Block → Int) (q : Int) (n : Nat) (delta : Block) (K : Nat → Block) : Nat → List Int → List Int × List Int
  | _, [] => ([], [])
  | i, x :: xs =>
    let r := sendLoop h q delta x ((slice n i).map fun p => (p.1, K p.2)) 0
    let rs := send h q n delta K (i + 1) xs
    (r.1 :: rs.1, r.2 ++ rs.2)

/-- The choice bits, `ole.h:73-76`: `BN_is_bit_set(in[i], j)`. -/
def bitsOf (x : Int) (j : Nat) : Bool := x.natAbs.testBit j

/-- `compute` of the receiver, `ole.h:71-92`; `M` are the blocks received from the correlated OT. -/
def recv (h : Block → Int) (q : Int) (n : Nat) (M : Nat → Bool → Block) : Nat → List Int → List Int → Res (List Int × List Int)
  | _, [], ms => .ok ([], ms)
  | i, x :: xs, ms => do
    let (o, ms) ← recvLoop h q ((slice n i).map fun p => (p.1, bitsOf x p.1, M p.2 (bitsOf x p.1))) ms 0
    let (os, ms) ← recv h q n M (i + 1) xs ms
    .ok (o :: os, ms)

/-- `OLE::compute` of both parties, `ole.h:42-93`: `ins` of the party holding `Δ`, `inr` of the other. -/
def compute (ccrh : Block → Block) (q : Int) (n : Nat) (delta : Block) (K : Nat → Block) (ins inr : List Int) :
    Res (List Int × List Int × List Int) := do
  let s := send (hashBn ccrh q) q n delta K 0 ins
  let (o, ms) ← recv (hashBn ccrh q) q n (fun k c => K k ^^^ (if c then delta else 0)) 0 inr s.2
  .ok (s.1, o, ms)

/-! ### GF(2^128) -/

/-- `pack.base[j]`: the unit vectors. emp-tool; used in `backend/ole_f2k.h:39,57`. -/
def base (j : Nat) : Block := BitVec.twoPow 128 j

/-- `inner_prod(res, a, pack.base, 128)`, `ole_f2k.h:16-24`; `gfmul_reflect` is the function `mulBlock`. -/
def innerProd (a : List Block) : Block :=
  (a.zip ((List.range 128).map base)).foldl (fun r p => r ^^^ mulBlock p.1 p.2) 0

/-- One element of the sender, `ole_f2k.h:34-40`. -/
def f2kSend (raw0 raw1 : Nat → Block) (x : Block) (i : Nat) : Block × List Block :=
  (innerProd ((List.range 128).map fun j => raw0 (i * 128 + j)),
   (List.range 128).map fun j => raw0 (i * 128 + j) ^^^ raw1 (i * 128 + j) ^^^ x)

/-- One element of the receiver, `ole_f2k.h:49-59`: `tmp` are the 128 blocks read. -/
def f2kRecv (raw : Nat → Bool → Block) (x : Block) (i : Nat) (tmp : List Block) : Block :=
  innerProd ((List.range 128).map fun j =>
    let c := x.getLsbD j
    if c then raw (i * 128 + j) c ^^^ tmp.getD j 0 else raw (i * 128 + j) c)

/-- The messages of all elements in order, and the outputs, `ole_f2k.h:30-41`. -/
def f2kSendAll (raw0 raw1 : Nat → Block) : Nat → List Block → List Block × List Block
  | _, [] => ([], [])
  | i, x :: xs =>
    let r := f2kSend raw0 raw1 x i
    let rs := f2kSendAll raw0 raw1 (i + 1) xs
    (r.1 :: rs.1, r.2 ++ rs.2)

/-- The loop `backend/ole_f2k.h:49-58`. -/
def f2kRecvAll (raw : Nat → Bool → Block) : Nat → List Block → List Block → Res (List Block × List Block)
  | _, [], q => .ok ([], q)
  | i, x :: xs, q =>
    if q.length < 128 then .error (.error "channel: blocks expected")
    else do
      let o := f2kRecv raw x i (q.take 128)
      let (os, q) ← f2kRecvAll raw (i + 1) xs (q.drop 128)
      .ok (o :: os, q)

/-- `OLEF2K::compute` of both parties, `ole_f2k.h:26-60`. -/
def f2kCompute (raw0 raw1 : Nat → Block) (ins inr : List Block) : Res (List Block × List Block × List Block) := do
  let s := f2kSendAll raw0 raw1 0 ins
  let (o, q) ← f2kRecvAll (fun k c => if c then raw1 k else raw0 k) 0 inr s.2
  .ok (s.1, o, q)

end Verif.Model.OLE
