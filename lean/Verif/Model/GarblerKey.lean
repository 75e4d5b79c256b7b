import Verif.Model.GarblerProbe
import Verif.Model.AESCircuit
import Verif.Spec.AES

/-! A garbler of the offline/online backend that adds blocks to the tables of gates in the last S-boxes of the cipher circuit and looks at the digest of the opened key stream. -/

namespace Verif.Model.GC
open Verif.Model
open Verif.Spec
open Verif.Spec.Circuit (Party Op)

/-- The list of the evaluator (`offline_hg_eva.h:15-26`) with `P k` added to the rows of gate `k`. -/
def addRows (P : Nat → Block × Block) (gc : List Block) : List Block :=
  gc.mapIdx fun n x => x ^^^ (if n % 2 = 0 then (P (n / 2)).1 else (P (n / 2)).2)

/-- The offline phase (`OffNet.step`) where the garbler adds `P k` to the rows of gate `k` before they are sent (`offline_hg_gen.h:30-42`); the evaluator is the one of the code. -/
def OffNet.stepAdd (E : Env) (P : Nat → Block × Block) (n : OffNet) : Op → Res OffNet
  | .and i j => do
    let a := n.gen.get E i
    let b := n.gen.get E j
    let r := garble E a (a ^^^ n.gen.delta) b (b ^^^ n.gen.delta) n.gen.delta n.gen.gid
    let (t, q) ← recvTable (n.toEva ++ [.blk (r.2.1 ^^^ (P n.gen.gid).1), .blk (r.2.2 ^^^ (P n.gen.gid).2)])
    .ok { gen := OffGen.push { n.gen with gid := n.gen.gid + 1, outLabels := n.gen.outLabels ++ [r.1] } r.1
          eva := { n.eva with gid := n.eva.gid + 1, gc := n.eva.gc ++ [t.1] ++ [t.2] }
          toEva := q }
  | op => n.step E op

/-- In place of `backend/offline_hg_gen.h:32-39` and `backend/offline_primus_gen.h:22-32`. -/
def OffNet.runAdd (E : Env) (P : Nat → Block × Block) (n : OffNet) : List Op → Res OffNet
  | [] => .ok n
  | op :: ops => do
    let n ← n.stepAdd E P op
    n.runAdd E P ops

/-! ### The gates -/

/-- AND gates of `cipher/circuit_files/aes128_with_ks.txt` in the S-boxes of the last round, eight in each; entry `8 s + t` belongs to S-box `s`.  What they compute goes to the outputs
through XOR and INV only. -/
def lastGates : List Nat :=
  [26548, 26582, 26568, 26595, 26572, 26590, 26574, 26538, 27071, 27089, 27113, 27084, 27081, 27101, 27215, 27244, 26260, 25945, 27261, 27265, 27288, 27277, 25946, 25942, 27149, 27163, 27195, 27136, 27141, 27158, 27145, 27131, 27843, 27854, 27890, 27876, 27896, 27881, 27862, 27868, 27949, 27972, 27978, 27964, 27992, 27984, 28000, 27946, 28113, 28142, 28129, 28107, 28137, 28130, 28094, 28101, 28201, 28240, 28224, 28219, 28213, 28232, 28205, 28251, 28737, 28680, 28700, 28713, 28708, 28703, 28687, 28666, 28836, 28856, 28875, 28892, 28880, 28871, 28841, 28866, 28982, 29015, 29036, 29001, 28994, 29008, 28969, 28978, 28601, 28637, 28635, 28620, 28624, 28771, 28613, 28594, 27346, 27404, 27436, 27396, 27384, 27414, 27351, 27380, 27454, 27476, 27479, 27507, 27466, 27491, 27487, 27460, 26723, 26757, 26764, 26754, 26752, 26767, 26729, 26736, 26893, 26906, 26927, 26936, 26949, 26921, 26931, 26898]

/-- The gates that compute the second operands of these.
Gates of `cipher/circuit_files/aes128_with_ks.txt`, loaded in `cipher/utils.cpp:15-25`. -/
def lastArgs : List Nat :=
  [26465, 25786, 25736, 26483, 26469, 26508, 26481, 26519, 25833, 25955, 25954, 25953, 26438, 25952, 26429, 26439, 25845, 25765, 25806, 25824, 25854, 25804, 25810, 25852, 25836, 25792, 25754, 25902, 25838, 25790, 25877, 25839, 27594, 27696, 27633, 27658, 27605, 27704, 27697, 27606, 27602, 27685, 27672, 27640, 27726, 27770, 27924, 27728, 27584, 27773, 27809, 27798, 27763, 27806, 28049, 27762, 27591, 27715, 27636, 27649, 27596, 27718, 27749, 27597, 28460, 28384, 28505, 28488, 28465, 28647, 28481, 28462, 28409, 28434, 28458, 28448, 28412, 28486, 28794, 28411, 28933, 28420, 28421, 28510, 28935, 28423, 28524, 28936, 28469, 28404, 28403, 28499, 28473, 28406, 28550, 28475, 26311, 27316, 26616, 26505, 27006, 26998, 27322, 26989, 26287, 26307, 26493, 26299, 26832, 26494, 27011, 26657, 26245, 26315, 26635, 26316, 26671, 26680, 26317, 26678, 26252, 26423, 26641, 26312, 26853, 26864, 26461, 26854]

/-- The bits of the S-box input whose sum is the second operand of gate `t`.
Read off `cipher/circuit_files/aes128_with_ks.txt`, loaded in `cipher/utils.cpp:15-25`. -/
def lastForms : List (List Nat) := [[0], [7, 4], [7, 2], [7, 1], [6, 5, 0], [7, 5, 4, 2], [7, 4, 3, 1], [7, 6, 5, 0]]

/-- The gates whose sum gets into bit `j` (most significant first) of the output byte.
Read off `cipher/circuit_files/aes128_with_ks.txt`, loaded in `cipher/utils.cpp:15-25`. -/
def lastCarry : List (List Nat) := [[1, 4, 5], [1, 5, 6], [0, 1, 2, 3, 6, 7], [1, 4, 6], [0, 1, 4], [0, 1, 3, 4, 5, 6, 7], [1, 3, 4, 5], [0, 1, 3, 6]]

/-- The second operand of gate `t` as a function of the S-box input.
Read off `cipher/circuit_files/aes128_with_ks.txt`, loaded in `cipher/utils.cpp:15-25`. -/
def formBit (t : Nat) (x : BitVec 8) : Bool := (lastForms.getD t []).foldl (fun b i => b ^^ x.getLsbD i) false

/-- The number of AND gates before gate `i` of a circuit file.
The increments of `gid`, `backend/offline_hg_gen.h:35`. -/
def gateNo (c : AESCircuit.Circuit) (i : Nat) : Nat := ((List.range i).map fun k => if (c.gate k).op = 0 then 1 else 0).sum

/-- The block for gate `t` of an S-box: bit `t + 1`.
Not in the code: what the cheating garbler adds to a table of `backend/offline_hg_gen.h:34-36`. -/
def tag (t : Nat) : Block := BitVec.twoPow 128 (t + 1)

/-- What the garbler adds if the circuit starts with gate number `k0` of the session: `tag t` to the second row of gate `t` in the S-boxes `s` with `S s`.
Not in the code: what the cheating garbler adds to the tables of `backend/offline_hg_gen.h:34-36`.
-/
def keyRows (k0 : Nat) (S : Nat → Bool) (k : Nat) : Block × Block :=
  (0, match (List.range 128).find? fun p => S (p / 8) && k == k0 + gateNo AESCircuit.aesEncKs (lastGates.getD p 0) with
    | some p => tag (p % 8)
    | none => 0)

/-- The byte that `ShiftRows` moves to byte `i`.
Of FIPS 197, as computed by the circuit called in `cipher/utils.h:249-254`. -/
def rowFrom (i : Nat) : Nat := 4 * ((i / 4 + i % 4) % 4) + i % 4

/-- What is on output bit `o` of the circuit if the S-box inputs of the last round are `x`; `N` is the number of wires before the circuit.
The labels hashed in `backend/online_primus_eva.h:46`. -/
def onOutput (E : Env) (g : OnGen) (S : Nat → Bool) (N : Nat) (x : List (BitVec 8)) (o : Nat) : Block :=
  let s := rowFrom (o / 8)
  if S s then (lastCarry.getD (o % 8) []).foldl (fun b t => b ^^^ sel (formBit t (x.getD s 0) ^^ lsb (g.get E (N + lastArgs.getD (8 * s + t) 0))) (tag t)) 0 else 0

/-- The labels the garbler compares the digest with if it thinks that the S-box inputs are `x`: its own labels, the opened bits, what it added.  The opened bits are the outputs of the
circuit in reverse order (`cipher/utils.h:249-254`). -/
def guess (E : Env) (g : OnGen) (delta : Block) (S : Nat → Bool) (N : Nat) (ws : List Nat) (bs : List Bool) (x : List (BitVec 8)) : List Block :=
  (List.range 128).map fun i => g.get E (ws.getD i 0) ^^^ sel (bs.getD i false) delta ^^^ onOutput E g S N x (127 - i)

/-! ### From the last round key to the key -/

/-- The four words before four words of the key schedule, `r` being the number of the later round key.
Inverts the schedule computed by the circuit called in `cipher/utils.h:242-246`. -/
def wordsBefore (r : Nat) (w : List AES.Word) : List AES.Word :=
  let a := w.getD 0 []
  let b := w.getD 1 []
  let c := w.getD 2 []
  let d := w.getD 3 []
  let d' := AES.xorWord d c
  [AES.xorWord a (AES.xorWord (AES.subWord (AES.rotWord d')) (AES.rcon r)), AES.xorWord b a, AES.xorWord c b, d']

/-- The round key `0` from round key `r`.
Inverts the schedule computed by the circuit called in `cipher/utils.h:242-246`. -/
def wordsFirst : Nat → List AES.Word → List AES.Word
  | 0, w => w
  | r + 1, w => wordsFirst r (wordsBefore (r + 1) w)

/-- The key from a block of key stream `z` and the S-box inputs of the last round.
Inverts the circuits called in `cipher/utils.h:242-254`. -/
def keyOf (z x : List (BitVec 8)) : List (BitVec 8) :=
  let k := List.zipWith (· ^^^ ·) z (AES.shiftRows (AES.subBytes x))
  (wordsFirst 10 [k.take 4, (k.drop 4).take 4, (k.drop 8).take 4, (k.drop 12).take 4]).flatten

end Verif.Model.GC
