import Verif.Lemmas.AESCertData
import Verif.Spec.AES

/-!
The kernel checks of the certificates of the AES circuits.
-/

namespace Verif.Lemmas.AESCert
open Verif.Lemmas.Bristol Verif.Model.AESCircuit

theorem ksTree_ok : treeCheck aesKs.chunks ksTree = true := by decide +kernel
theorem encTree_ok : treeCheck aesEncKs.chunks encTree = true := by decide +kernel
theorem ksSsa_ok : ssaCheck ksTree ksProd aesKs.numGate (aesKs.n1 + aesKs.n2) 13 = true := by decide +kernel
theorem encSsa_ok : ssaCheck encTree encProd aesEncKs.numGate (aesEncKs.n1 + aesEncKs.n2) 15 = true := by decide +kernel

/-- The truth table of bit `j` (most significant first) of a byte. -/
def bitTab (j : Nat) : Nat :=
  [0xffffffffffffffffffffffffffffffff00000000000000000000000000000000,
    0xffffffffffffffff0000000000000000ffffffffffffffff0000000000000000,
    0xffffffff00000000ffffffff00000000ffffffff00000000ffffffff00000000,
    0xffff0000ffff0000ffff0000ffff0000ffff0000ffff0000ffff0000ffff0000,
    0xff00ff00ff00ff00ff00ff00ff00ff00ff00ff00ff00ff00ff00ff00ff00ff00,
    0xf0f0f0f0f0f0f0f0f0f0f0f0f0f0f0f0f0f0f0f0f0f0f0f0f0f0f0f0f0f0f0f0,
    0xcccccccccccccccccccccccccccccccccccccccccccccccccccccccccccccccc,
    0xaaaaaaaaaaaaaaaaaaaaaaaaaaaaaaaaaaaaaaaaaaaaaaaaaaaaaaaaaaaaaaaa].getD j 0

/-- The truth table of bit `j` (most significant first) of the S-box. -/
def sboxTab (j : Nat) : Nat :=
  [0x52379de7b844e3e14cb3770196ca0329e7bac28f866aac825caa2ec7bf977090,
    0x21e0b833255917823f6bcb91b30db559e4851b3bf3ab2560980a3cc2c2fdb4ff,
    0x54b248130b4f256f7d8dcc4706319e086bc2aa4e0d787aa4f8045f7b6d98dd7f,
    0xf210a3aece472e532624b286bc48ecb4f7f17a494ce30f58c2b0f97752b8b11e,
    0x4e9ddb76c892fb1be9da849cf6ac6c1b2568ea2effa8527d109020a2193d586a,
    0xac39b6c0d6ce2efc577d64e03b0c3ffb23a869a2a428c424a16387fb3b48b4c6,
    0xc870974094ead8a96a450b2ef33486b4e61a4c5e97816f7a7bae007d4c53fc7d,
    0x4f1ead396f247a0410bdb210c006eab568ab4bfa8acb7a13b14ede67096c6eed].getD j 0

theorem bitTab_ok : ∀ x < 256, ∀ j < 8, (bitTab j).testBit x = (BitVec.ofNat 8 x).getLsbD (7 - j) := by decide +kernel

theorem sboxTab_ok : ∀ x < 256, ∀ j < 8, (sboxTab j).testBit x = (Spec.AES.sbox (BitVec.ofNat 8 x)).getLsbD (7 - j) := by
  decide +kernel

/-- The certificate `k` shows that the wires `o` are the S-box of the wires `i`. -/
def boxCheck (t : Tree) (ng : Nat) (i o : Nat → Nat) (k : Cert) : Bool :=
  modCheck t ng 256 (2 ^ 256 - 1) false 8 i bitTab 8 o sboxTab k.tpos k.d k.n k.code

/-- S-box `s` of the cipher: its wires are the fields `8 s + j` of `encIn` and `encOut`. -/
def encBoxCheck (s : Nat) : Bool :=
  boxCheck encTree aesEncKs.numGate (fun j => rd 16 encIn (8 * s + j)) (fun j => rd 16 encOut (8 * s + j))
    (encBox.getD s ⟨0, 0, 0, 0⟩)

theorem encBox0_ok : allLt 16 (fun s => encBoxCheck (16 * 0 + s)) = true := by decide +kernel
theorem encBox1_ok : allLt 16 (fun s => encBoxCheck (16 * 1 + s)) = true := by decide +kernel
theorem encBox2_ok : allLt 16 (fun s => encBoxCheck (16 * 2 + s)) = true := by decide +kernel
theorem encBox3_ok : allLt 16 (fun s => encBoxCheck (16 * 3 + s)) = true := by decide +kernel
theorem encBox4_ok : allLt 16 (fun s => encBoxCheck (16 * 4 + s)) = true := by decide +kernel
theorem encBox5_ok : allLt 16 (fun s => encBoxCheck (16 * 5 + s)) = true := by decide +kernel
theorem encBox6_ok : allLt 16 (fun s => encBoxCheck (16 * 6 + s)) = true := by decide +kernel
theorem encBox7_ok : allLt 16 (fun s => encBoxCheck (16 * 7 + s)) = true := by decide +kernel
theorem encBox8_ok : allLt 16 (fun s => encBoxCheck (16 * 8 + s)) = true := by decide +kernel
theorem encBox9_ok : allLt 16 (fun s => encBoxCheck (16 * 9 + s)) = true := by decide +kernel

/-- The wire of bit `v` of round key `r` in the cipher circuit: the bytes of a word are reversed. -/
def keyWire (r v : Nat) : Nat := 128 * r + 32 * (v / 32) + 8 * (3 - v / 8 % 4) + v % 8

/-- The wires on which layer `r` of the cipher depends: 128 state bits, 128 round key bits. -/
def encVar (r v : Nat) : Nat :=
  if v < 128 then (if r = 0 then 1535 - v else rd 16 encOut (128 * (r - 1) + v)) else keyWire r (v - 128)

/-- The wires layer `r` computes. -/
def encTarget (r t : Nat) : Nat := if r < 10 then rd 16 encIn (128 * r + t) else 30467 + t

/-- The byte that `ShiftRows` moves to byte `i`. -/
def shiftFrom (i : Nat) : Nat := 4 * ((i / 4 + i % 4) % 4) + i % 4

/-- Bit `j` of `{02}` times byte `q`, as a sum of variables. -/
def doubleForm (q j : Nat) : List Nat :=
  (if j < 7 then [8 * q + j + 2] else []) ++ (if j = 3 ∨ j = 4 ∨ j = 6 ∨ j = 7 then [8 * q + 1] else [])

/-- Bit `j` of byte `i` of `MixColumns (ShiftRows s)`. -/
def mixForm (i j : Nat) : List Nat :=
  let q (k : Nat) := shiftFrom (4 * (i / 4) + (i + k) % 4)
  doubleForm (q 0) j ++ (doubleForm (q 1) j ++ ([8 * q 1 + j + 1] ++ ([8 * q 2 + j + 1] ++ [8 * q 3 + j + 1])))

/-- Bit `t` after layer `r` of the cipher. -/
def encForm (r t : Nat) : List Nat :=
  (if r = 0 then [t + 1] else if r < 10 then mixForm (t / 8) (t % 8) else [8 * shiftFrom (t / 8) + t % 8 + 1]) ++ [t + 129]

/-- Layer `r` of the cipher. -/
def encLinCheck (r : Nat) : Bool :=
  let k := encLin.getD r ⟨0, 0, 0, 0⟩
  modCheck encTree aesEncKs.numGate 320 1 true 256 (encVar r) (fun v => Nat.pow 2 (Nat.succ v)) 128 (encTarget r)
    (fun t => mask (encForm r t)) k.tpos k.d k.n k.code

theorem encLin0_ok : encLinCheck 0 = true := by decide +kernel
theorem encLin1_ok : encLinCheck 1 = true := by decide +kernel
theorem encLin2_ok : encLinCheck 2 = true := by decide +kernel
theorem encLin3_ok : encLinCheck 3 = true := by decide +kernel
theorem encLin4_ok : encLinCheck 4 = true := by decide +kernel
theorem encLin5_ok : encLinCheck 5 = true := by decide +kernel
theorem encLin6_ok : encLinCheck 6 = true := by decide +kernel
theorem encLin7_ok : encLinCheck 7 = true := by decide +kernel
theorem encLin8_ok : encLinCheck 8 = true := by decide +kernel
theorem encLin9_ok : encLinCheck 9 = true := by decide +kernel
theorem encLin10_ok : encLinCheck 10 = true := by decide +kernel

/-- The wire of bit `v` of round key `r` at the output of the key schedule circuit. -/
def ksWire (r v : Nat) : Nat := 5953 + keyWire r v

/-- S-box `k` of round `r` of the key schedule: byte `k` of the rotated last word. -/
def ksBoxCheck (s : Nat) : Bool :=
  boxCheck ksTree aesKs.numGate (fun j => ksWire (s / 4) (96 + 8 * ((s % 4 + 1) % 4) + j)) (fun j => rd 16 ksOut (8 * s + j))
    (ksBox.getD s ⟨0, 0, 0, 0⟩)

theorem ksBox0_ok : allLt 20 (fun s => ksBoxCheck s) = true := by decide +kernel
theorem ksBox1_ok : allLt 20 (fun s => ksBoxCheck (20 + s)) = true := by decide +kernel

/-- The wires on which round key `r` depends. -/
def ksVar (r v : Nat) : Nat :=
  if r = 0 then 127 - v else if v < 128 then ksWire (r - 1) v else rd 16 ksOut (32 * (r - 1) + (v - 128))

/-- Bit `t` of round key `r`. -/
def ksForm (r t : Nat) : List Nat :=
  if r = 0 then [t + 1]
  else (List.range (t / 32 + 1)).map (fun c => 32 * c + t % 32 + 1) ++ ([128 + t % 32 + 1] ++
    (if t / 8 % 4 = 0 ∧ (Spec.AES.xpow 1 (r - 1)).getLsbD (7 - t % 8) = true then [0] else []))

/-- Round key `r`. -/
def ksLinCheck (r : Nat) : Bool :=
  let k := ksLin.getD r ⟨0, 0, 0, 0⟩
  modCheck ksTree aesKs.numGate 320 1 true (if r = 0 then 128 else 160) (ksVar r) (fun v => Nat.pow 2 (Nat.succ v)) 128
    (ksWire r) (fun t => mask (ksForm r t)) k.tpos k.d k.n k.code

theorem ksLin0_ok : ksLinCheck 0 = true := by decide +kernel
theorem ksLin1_ok : ksLinCheck 1 = true := by decide +kernel
theorem ksLin2_ok : ksLinCheck 2 = true := by decide +kernel
theorem ksLin3_ok : ksLinCheck 3 = true := by decide +kernel
theorem ksLin4_ok : ksLinCheck 4 = true := by decide +kernel
theorem ksLin5_ok : ksLinCheck 5 = true := by decide +kernel
theorem ksLin6_ok : ksLinCheck 6 = true := by decide +kernel
theorem ksLin7_ok : ksLinCheck 7 = true := by decide +kernel
theorem ksLin8_ok : ksLinCheck 8 = true := by decide +kernel
theorem ksLin9_ok : ksLinCheck 9 = true := by decide +kernel
theorem ksLin10_ok : ksLinCheck 10 = true := by decide +kernel

end Verif.Lemmas.AESCert
