import Verif.Model.OLE

/-! `backend/vope.h`: vector oblivious polynomial evaluation.

The buffer `M` (`oles * 128` blocks) and the pointers `U`, `t1`, `t2` into it are one memory, a function from indices;
the largest index used is `3*oles + length - 1 < 128*oles`.  `length ≥ 1`: with `length ≤ 0` the array size is negative.

`GaloisFieldPacking::packing` belongs to emp-tool: `res = Σ data[j]·base[j]` with emp-tool's `gfmul`, the product of
polynomials modulo `x^128+x^7+x^2+x+1` with bit `j` the coefficient of `x^j`.  The product is a parameter `pm` here; the
code is the instance `pm := gfmul`. -/

namespace Verif.Model.VOPE
open Verif.Model

/-- Multiplication by `x` in emp-tool's representation.
emp-tool `f2k.h` (not in /repo), called through `pack` in `backend/vope.h:13`. -/
def timesX (a : Block) : Block := (a <<< 1) ^^^ (if a.getLsbD 127 then 0x87#128 else 0#128)

/-- emp-tool `f2k.h` (not in /repo), called through `pack` in `backend/vope.h:13`. -/
def timesXPow (a : Block) : Nat → Block
  | 0 => a
  | n + 1 => timesX (timesXPow a n)

/-- emp-tool's `gfmul` (`f2k.h`), external. -/
def gfmul (a b : Block) : Block :=
  (List.range 128).foldl (fun acc j => if b.getLsbD j then acc ^^^ timesXPow a j else acc) 0#128

/-- `pack.packing(res, data)` with the product `pm`. `backend/vope.h:39,66,69,71`. -/
def packing (pm : Block → Block → Block) (data : Nat → Block) : Block :=
  (List.range 128).foldl (fun acc j => acc ^^^ pm (data j) (OLE.base j)) 0#128

/-- `bool_to_block`: bit `j` is `bits[j]`. `backend/vope.h:40`. -/
def boolToBlock (bits : Nat → Bool) : Block :=
  (List.range 128).foldl (fun acc j => if bits j then acc ^^^ OLE.base j else acc) 0#128

/-- The array `M` of `backend/vope.h:20`, with the pointers into it of lines 35-37, and `out`. -/
abbrev Mem := Nat → Block

/-- Assignments such as `backend/vope.h:43-44`. -/
def Mem.set (m : Mem) (k : Nat) (v : Block) : Mem := fun i => if i = k then v else m i

/-- Lines 26-33 of the receiver: the correlated OT gives `K ^ b·Δ`, then `diff[b]` with `diff[1] = h ^ Δ` is added.
`backend/vope.h:26-33`. -/
def recvMem (K : Mem) (delta h : Block) (bits : Nat → Bool) : Mem := fun k =>
  (K k ^^^ (if bits k then delta else 0#128)) ^^^ (if bits k then h ^^^ delta else 0#128)

/-- The first `n` rounds of the loop at lines 38-41. `backend/vope.h:38-41`. -/
def packLoop (pm : Block → Block → Block) (oles : Nat) (bits : Nat → Bool) (m : Mem) : Nat → Mem
  | 0 => m
  | i + 1 =>
    let m := packLoop pm oles bits m i
    let m := m.set i (packing pm fun j => m (i * 128 + j))
    m.set (oles + i) (boolToBlock fun j => bits (i * 128 + j))

/-- The first `n` rounds of the loop at lines 46-49, in round `i` of the outer loop.
`backend/vope.h:46-49`. -/
def mulLoop (oles i : Nat) (out : Mem) (m : Mem) : Nat → Mem
  | 0 => m
  | j + 1 =>
    let m := mulLoop oles i out m j
    let m := m.set (2 * oles + j) (mulBlock (out j) (m i))
    m.set (3 * oles + j) (mulBlock (out j) (m (oles + i)))

/-- The first `n` rounds of the loop at lines 51-52. `backend/vope.h:51-52`. -/
def addLoop (oles : Nat) (m out : Mem) : Nat → Mem
  | 0 => out
  | j + 1 => (addLoop oles m out j).set (j + 1) (m (3 * oles + j) ^^^ m (2 * oles + (j + 1)))

/-- One round of the outer loop, lines 46-55: memory and `out`. `backend/vope.h:46-55`. -/
def step (oles length i : Nat) (s : Mem × Mem) : Mem × Mem :=
  let m := mulLoop oles i s.2 s.1 (i + 1)
  let out := s.2.set 0 (m (2 * oles + 0))
  let out := addLoop oles m out i
  let out := out.set (i + 1) (m (3 * oles + i))
  let out := out.set 0 (out 0 ^^^ m (length + i - 1))
  let out := out.set 1 (out 1 ^^^ m (oles + (length + i - 1)))
  (m, out)

/-- The loop `backend/vope.h:45-56`. -/
def outer (oles length : Nat) (s : Mem × Mem) : Nat → Mem × Mem
  | 0 => s
  | n + 1 => step oles length (n + 1) (outer oles length s n)

/-- `compute_recv`, `vope.h:18-57`; `out0` is the content of the caller's array before. -/
def recv (pm : Block → Block → Block) (K : Mem) (delta h : Block) (bits : Nat → Bool) (length : Nat) (out0 : Mem) : Mem :=
  let oles := length * 2 - 1
  let m := packLoop pm oles bits (recvMem K delta h bits) oles
  let out := (out0.set 0 (m 0)).set 1 (m (oles + 0))
  (outer oles length (m, out) (length - 1)).2

/-- The loop of `compute_send`, lines 68-73. `backend/vope.h:68-73`. -/
def sendLoop (pm : Block → Block → Block) (K : Mem) (length : Nat) : Nat → Block
  | 0 => packing pm K
  | i + 1 =>
    mulBlock (sendLoop pm K length i) (packing pm fun j => K ((i + 1) * 128 + j))
      ^^^ packing pm fun j => K ((i + 1 + length - 1) * 128 + j)

/-- `compute_send`, `vope.h:58-74`. -/
def send (pm : Block → Block → Block) (K : Mem) (length : Nat) : Block := sendLoop pm K length (length - 1)

/-- What the correlated OT gives the receiver, line 26. `backend/vope.h:26`. -/
def cotOut (K : Mem) (delta : Block) (bits : Nat → Bool) : Mem := fun k => K k ^^^ (if bits k then delta else 0#128)

/-- The message of `compute_send`, line 62. `backend/vope.h:63-64`. -/
def diff (delta h : Block) : Block := h ^^^ delta

end Verif.Model.VOPE
