import Verif.Lemmas.AESCert
import Verif.Lemmas.Encoding
import Mathlib.Data.List.GetD

/-!
From the checked certificates to AES: the wires of the circuits hold the intermediate states of FIPS 197.
-/

namespace Verif.Lemmas.AESCircuit
open Verif.Model Verif.Model.Integer Verif.Model.AESCircuit Verif.Lemmas.AESCert Verif.Lemmas.Bristol
open Verif.Spec.Encoding
open Verif.Spec

/-- Bit `j` of a byte, most significant first. -/
def bit (b : Byte) (j : Nat) : Bool := b.getLsbD (7 - j)

theorem byte_ext {a b : Byte} (h : ∀ j < 8, bit a j = bit b j) : a = b := by
  apply BitVec.eq_of_getLsbD_eq
  intro i hi
  have := h (7 - i) (by omega)
  simp only [bit] at this
  rwa [show 7 - (7 - i) = i by omega] at this

theorem bit_xor (a b : Byte) (j : Nat) : bit (a ^^^ b) j = (bit a j != bit b j) := by simp [bit]

theorem getD_bytesBits (s : List Byte) (q j : Nat) (hj : j < 8) :
    (bytesBits s).getD (8 * q + j) false = bit (s.getD q 0) j := by
  induction s generalizing q with
  | nil => simp [bytesBits, bit]
  | cons b s ih =>
    rw [bytesBits, List.flatMap_cons]
    cases q with
    | zero =>
      rw [List.getD_append _ _ _ _ (by simp [byteBits]; omega)]
      simp only [Nat.mul_zero, Nat.zero_add, List.getD_cons_zero]
      match j, hj with
      | 0, _ | 1, _ | 2, _ | 3, _ | 4, _ | 5, _ | 6, _ | 7, _ => rfl
    | succ q =>
      rw [List.getD_append_right _ _ _ _ (by simp [byteBits]; omega), List.getD_cons_succ, ← ih q]
      congr 1
      simp only [byteBits, List.length_cons, List.length_nil]; omega

theorem length_bytesBits (s : List Byte) : (bytesBits s).length = 8 * s.length := by
  induction s with
  | nil => rfl
  | cons b s ih => rw [bytesBits, List.flatMap_cons, List.length_append, ← bytesBits, ih]; simp [byteBits]; omega

theorem bits_ext {l : List Bool} {s : List Byte} (hl : l.length = 8 * s.length)
    (h : ∀ q < s.length, ∀ j < 8, l.getD (8 * q + j) false = bit (s.getD q 0) j) : l = bytesBits s := by
  apply List.ext_getElem (by rw [hl, length_bytesBits])
  intro i h1 h2
  have := h (i / 8) (by omega) (i % 8) (by omega)
  rw [← getD_bytesBits _ _ _ (by omega), show 8 * (i / 8) + i % 8 = i by omega] at this
  rwa [List.getD_eq_getElem _ _ h1, List.getD_eq_getElem _ _ h2] at this

/-- The byte on the wires `f (8 q), ..., f (8 q + 7)`. -/
def wbyte (W : Wires) (f : Nat → Nat) (q : Nat) : Byte :=
  BitVec.ofBoolListBE [W (f (8 * q)), W (f (8 * q + 1)), W (f (8 * q + 2)), W (f (8 * q + 3)), W (f (8 * q + 4)),
    W (f (8 * q + 5)), W (f (8 * q + 6)), W (f (8 * q + 7))]

theorem bit_ofBools : ∀ b0 b1 b2 b3 b4 b5 b6 b7 : Bool, ∀ j < 8,
    bit (BitVec.ofBoolListBE [b0, b1, b2, b3, b4, b5, b6, b7]) j = [b0, b1, b2, b3, b4, b5, b6, b7].getD j false := by
  decide +kernel

theorem bit_wbyte (W : Wires) (f : Nat → Nat) (q j : Nat) (hj : j < 8) : bit (wbyte W f q) j = W (f (8 * q + j)) := by
  rw [wbyte, bit_ofBools _ _ _ _ _ _ _ _ _ hj]
  match j, hj with
  | 0, _ | 1, _ | 2, _ | 3, _ | 4, _ | 5, _ | 6, _ | 7, _ => rfl

/-! ### S-boxes and linear layers -/

theorem box_sound {c : Circuit} {t : Tree} {W : Wires} (ht : treeCheck c.chunks t = true)
    (hn : c.numGate ≤ 256 * c.chunks.length) (hW : ∀ i < c.numGate, W (c.gate i).o = (c.gate i).out W)
    {i o : Nat → Nat} {k : Cert} (h : boxCheck t c.numGate i o k = true) (x : Byte)
    (hx : ∀ j < 8, bit x j = W (i j)) (j : Nat) (hj : j < 8) : W (o j) = bit (AES.sbox x) j := by
  have hlt : x.toNat < 256 := x.isLt
  have h1 := table_sound ht hn hW h x.toNat hlt (by
    intro v hv
    rw [bitTab_ok _ hlt _ hv, BitVec.ofNat_toNat, BitVec.setWidth_eq]
    exact hx v hv) j hj
  rw [← h1, sboxTab_ok _ hlt _ hj, BitVec.ofNat_toNat, BitVec.setWidth_eq]
  rfl

theorem encBox_ok (s : Nat) (hs : s < 160) : encBoxCheck s = true := by
  have key : ∀ r < 10, ∀ i < 16, encBoxCheck (16 * r + i) = true := by
    intro r hr
    match r, hr with
    | 0, _ => exact allLt_sound encBox0_ok
    | 1, _ => exact allLt_sound encBox1_ok
    | 2, _ => exact allLt_sound encBox2_ok
    | 3, _ => exact allLt_sound encBox3_ok
    | 4, _ => exact allLt_sound encBox4_ok
    | 5, _ => exact allLt_sound encBox5_ok
    | 6, _ => exact allLt_sound encBox6_ok
    | 7, _ => exact allLt_sound encBox7_ok
    | 8, _ => exact allLt_sound encBox8_ok
    | 9, _ => exact allLt_sound encBox9_ok
  have := key (s / 16) (by omega) (s % 16) (by omega)
  rwa [show 16 * (s / 16) + s % 16 = s by omega] at this

theorem ksBox_ok (s : Nat) (hs : s < 40) : ksBoxCheck s = true := by
  by_cases h : s < 20
  · exact allLt_sound ksBox0_ok s h
  · have := allLt_sound ksBox1_ok (s - 20) (by omega)
    rwa [show 20 + (s - 20) = s by omega] at this

theorem encLin_ok (r : Nat) (hr : r < 11) : encLinCheck r = true := by
  match r, hr with
  | 0, _ => exact encLin0_ok
  | 1, _ => exact encLin1_ok
  | 2, _ => exact encLin2_ok
  | 3, _ => exact encLin3_ok
  | 4, _ => exact encLin4_ok
  | 5, _ => exact encLin5_ok
  | 6, _ => exact encLin6_ok
  | 7, _ => exact encLin7_ok
  | 8, _ => exact encLin8_ok
  | 9, _ => exact encLin9_ok
  | 10, _ => exact encLin10_ok

theorem ksLin_ok (r : Nat) (hr : r < 11) : ksLinCheck r = true := by
  match r, hr with
  | 0, _ => exact ksLin0_ok
  | 1, _ => exact ksLin1_ok
  | 2, _ => exact ksLin2_ok
  | 3, _ => exact ksLin3_ok
  | 4, _ => exact ksLin4_ok
  | 5, _ => exact ksLin5_ok
  | 6, _ => exact ksLin6_ok
  | 7, _ => exact ksLin7_ok
  | 8, _ => exact ksLin8_ok
  | 9, _ => exact ksLin9_ok
  | 10, _ => exact ksLin10_ok

theorem sum_append (env : Nat → Bool) (a b : List Nat) : sum env (a ++ b) = (sum env a != sum env b) := by
  induction a with
  | nil => simp [sum]
  | cons v a ih => rw [List.cons_append, sum, sum, ih]; cases env v <;> cases sum env a <;> cases sum env b <;> rfl

theorem sum_single (env : Nat → Bool) (v : Nat) : sum env [v] = env v := by simp [sum]

/-- A layer in terms of bits of bytes. -/
theorem encLayer {W : Wires} (hW : ∀ i < aesEncKs.numGate, W (aesEncKs.gate i).o = (aesEncKs.gate i).out W)
    (r : Nat) (hr : r < 11) (t : Nat) (ht : t < 128) :
    W (encTarget r t) = sum (fun v => if v = 0 then true else W (encVar r (v - 1))) (encForm r t) := by
  have hex : ∀ r < 11, ∀ t < 128, ∀ v ∈ encForm r t, v < 320 := by decide +kernel
  exact linear_sound encTree_ok (by decide) hW (by decide) (encLin_ok r hr) t ht (hex r hr t ht)

theorem encSub {W : Wires} (hW : ∀ i < aesEncKs.numGate, W (aesEncKs.gate i).o = (aesEncKs.gate i).out W)
    (r : Nat) (hr : r < 10) (q : Nat) (hq : q < 16) :
    wbyte W (encVar (r + 1)) q = AES.sbox (wbyte W (encTarget r) q) := by
  apply byte_ext
  intro j hj
  rw [bit_wbyte _ _ _ _ hj]
  have := box_sound encTree_ok (by decide) hW (encBox_ok (16 * r + q) (by omega)) (wbyte W (encTarget r) q)
    (by
      intro j hj
      rw [bit_wbyte _ _ _ _ hj, encTarget, if_pos hr]
      congr 2; omega) j hj
  rw [← this, encVar, if_pos (by omega), if_neg (by omega)]
  congr 2; omega

theorem double_bit : ∀ a : Byte, ∀ j < 8, bit (AES.mul 0x02 a) j =
    ((if j < 7 then bit a (j + 1) else false) != (if j = 3 ∨ j = 4 ∨ j = 6 ∨ j = 7 then bit a 0 else false)) := by
  decide +kernel

theorem triple : ∀ a : Byte, AES.mul 0x03 a = AES.mul 0x02 a ^^^ a := by decide +kernel

section
variable {W : Wires} (r : Nat)

/-- The values of the variables of layer `r`. -/
def lenv (W : Wires) (r : Nat) : Nat → Bool := fun v => if v = 0 then true else W (encVar r (v - 1))

theorem lenv_bit (q j k : Nat) (hj : j < 8) (hk : k = 8 * q + j + 1) : lenv W r k = bit (wbyte W (encVar r) q) j := by
  rw [bit_wbyte _ _ _ _ hj, lenv, if_neg (by omega)]
  congr 2; omega

theorem lenv_key (q j k : Nat) (hj : j < 8) (hk : k = 8 * q + j + 129) : lenv W r k = bit (wbyte W (keyWire r) q) j := by
  rw [bit_wbyte _ _ _ _ hj, lenv, if_neg (by omega), encVar, if_neg (by omega),
    show k - 1 - 128 = 8 * q + j by omega]

theorem sum_double (q j : Nat) (hj : j < 8) :
    sum (lenv W r) (doubleForm q j) = bit (AES.mul 0x02 (wbyte W (encVar r) q)) j := by
  rw [double_bit _ _ hj, doubleForm, sum_append]
  have e1 : sum (lenv W r) (if j < 7 then [8 * q + j + 2] else [])
      = (if j < 7 then bit (wbyte W (encVar r) q) (j + 1) else false) := by
    by_cases h : j < 7
    · rw [if_pos h, if_pos h, sum_single]; exact lenv_bit r q (j + 1) _ (by omega) (by omega)
    · rw [if_neg h, if_neg h]; rfl
  have e2 : sum (lenv W r) (if j = 3 ∨ j = 4 ∨ j = 6 ∨ j = 7 then [8 * q + 1] else [])
      = (if j = 3 ∨ j = 4 ∨ j = 6 ∨ j = 7 then bit (wbyte W (encVar r) q) 0 else false) := by
    by_cases h : j = 3 ∨ j = 4 ∨ j = 6 ∨ j = 7
    · rw [if_pos h, if_pos h, sum_single]; exact lenv_bit r q 0 _ (by omega) (by omega)
    · rw [if_neg h, if_neg h]; rfl
  rw [e1, e2]

end

section
variable {W : Wires} (hW : ∀ i < aesEncKs.numGate, W (aesEncKs.gate i).o = (aesEncKs.gate i).out W)
include hW

theorem encFirst (q : Nat) (hq : q < 16) :
    wbyte W (encTarget 0) q = wbyte W (encVar 0) q ^^^ wbyte W (keyWire 0) q := by
  apply byte_ext
  intro j hj
  rw [bit_wbyte _ _ _ _ hj, encLayer hW 0 (by omega) _ (by omega), bit_xor]
  show sum (lenv W 0) (encForm 0 (8 * q + j)) = _
  rw [encForm, if_pos rfl, sum_append, sum_single, sum_single, lenv_bit 0 q j _ hj rfl, lenv_key 0 q j _ hj rfl]

theorem encMid (r : Nat) (h0 : 0 < r) (hr : r < 10) (q : Nat) (hq : q < 16) :
    let s (k : Nat) := wbyte W (encVar r) (shiftFrom (4 * (q / 4) + (q + k) % 4))
    wbyte W (encTarget r) q =
      AES.mul 0x02 (s 0) ^^^ AES.mul 0x03 (s 1) ^^^ s 2 ^^^ s 3 ^^^ wbyte W (keyWire r) q := by
  intro s
  apply byte_ext
  intro j hj
  rw [bit_wbyte _ _ _ _ hj, encLayer hW r (by omega) _ (by omega)]
  show sum (lenv W r) (encForm r (8 * q + j)) = _
  rw [encForm, if_neg (by omega), if_pos hr, show (8 * q + j) / 8 = q by omega, show (8 * q + j) % 8 = j by omega, mixForm]
  simp only [sum_append, sum_single, triple, bit_xor, sum_double r _ _ hj]
  rw [lenv_bit r _ j _ hj rfl, lenv_bit r _ j _ hj rfl, lenv_bit r _ j _ hj rfl, lenv_key r q j _ hj rfl]
  simp only [s]
  generalize bit (AES.mul 0x02 _) j = b0
  generalize bit (AES.mul 0x02 _) j = b1
  generalize bit (wbyte W (encVar r) _) j = b2
  generalize bit (wbyte W (encVar r) _) j = b3
  generalize bit (wbyte W (encVar r) _) j = b4
  generalize bit (wbyte W (keyWire r) _) j = b5
  revert b0 b1 b2 b3 b4 b5
  decide

theorem encLast (q : Nat) (hq : q < 16) :
    wbyte W (encTarget 10) q = wbyte W (encVar 10) (shiftFrom q) ^^^ wbyte W (keyWire 10) q := by
  apply byte_ext
  intro j hj
  rw [bit_wbyte _ _ _ _ hj, encLayer hW 10 (by omega) _ (by omega), bit_xor]
  show sum (lenv W 10) (encForm 10 (8 * q + j)) = _
  rw [encForm, if_neg (by omega), if_neg (by omega), show (8 * q + j) / 8 = q by omega, show (8 * q + j) % 8 = j by omega,
    sum_append, sum_single, sum_single, lenv_bit 10 _ j _ hj rfl, lenv_key 10 q j _ hj rfl]

end

/-! ### The states of FIPS 197 -/

theorem getD_map_range (n : Nat) (f : Nat → Byte) (i : Nat) (hi : i < n) : ((List.range n).map f).getD i 0 = f i := by
  rw [List.getD_eq_getElem _ _ (by simpa using hi)]; simp

theorem getD_shiftRows (s : AES.State) (i : Nat) (hi : i < 16) : (AES.shiftRows s).getD i 0 = s.getD (shiftFrom i) 0 :=
  getD_map_range _ _ _ hi

theorem getD_subBytes (s : AES.State) (i : Nat) (hi : i < s.length) : (AES.subBytes s).getD i 0 = AES.sbox (s.getD i 0) := by
  rw [AES.subBytes, List.getD_eq_getElem _ _ (by simpa using hi), List.getD_eq_getElem _ _ hi, List.getElem_map]

theorem getD_zipXor (s k : List Byte) (i : Nat) (h1 : i < s.length) (h2 : i < k.length) :
    (List.zipWith (· ^^^ ·) s k).getD i 0 = s.getD i 0 ^^^ k.getD i 0 := by
  rw [List.getD_eq_getElem _ _ (by simp; omega), List.getD_eq_getElem _ _ h1, List.getD_eq_getElem _ _ h2,
    List.getElem_zipWith]

/-- A key schedule. -/
def IsSchedule (ws : List AES.Word) : Prop := ws.length = 44 ∧ ∀ w ∈ ws, w.length = 4

theorem getD_flatten (ws : List AES.Word) (h : ∀ w ∈ ws, w.length = 4) (i b : Nat) (hb : b < 4) :
    ws.flatten.getD (4 * i + b) 0 = (ws.getD i []).getD b 0 := by
  induction ws generalizing i with
  | nil => simp
  | cons w ws ih =>
    have hw := h w List.mem_cons_self
    rw [List.flatten_cons]
    cases i with
    | zero => rw [List.getD_append _ _ _ _ (by omega)]; simp
    | succ i =>
      rw [List.getD_append_right _ _ _ _ (by omega), List.getD_cons_succ, ← ih (fun x hx => h x (List.mem_cons_of_mem _ hx))]
      congr 1; omega

theorem length_flatten4 (ws : List AES.Word) (h : ∀ w ∈ ws, w.length = 4) : ws.flatten.length = 4 * ws.length := by
  induction ws with
  | nil => rfl
  | cons w ws ih =>
    rw [List.flatten_cons, List.length_append, h w List.mem_cons_self, ih (fun x hx => h x (List.mem_cons_of_mem _ hx))]
    simp; omega

theorem IsSchedule.roundKey {ws : List AES.Word} (h : IsSchedule ws) (r : Nat) (hr : r < 11) :
    (AES.roundKey ws r).length = 16 ∧
      ∀ q < 16, (AES.roundKey ws r).getD q 0 = (ws.getD (4 * r + q / 4) []).getD (q % 4) 0 := by
  have hm : ∀ w ∈ (ws.drop (4 * r)).take 4, w.length = 4 := fun w hw => h.2 w (List.mem_of_mem_drop (List.mem_of_mem_take hw))
  refine ⟨?_, ?_⟩
  · rw [AES.roundKey, length_flatten4 _ hm, List.length_take, List.length_drop, h.1]; omega
  · intro q hq
    have := getD_flatten _ hm (q / 4) (q % 4) (by omega)
    rw [show 4 * (q / 4) + q % 4 = q by omega] at this
    rw [AES.roundKey, this]
    congr 1
    rw [List.getD_eq_getElem?_getD, List.getElem?_take, if_pos (by omega), List.getElem?_drop, List.getD_eq_getElem?_getD]

/-- The layout of the expanded key: the bytes of every word in reverse order, every byte most significant bit first. -/
def keyLayout (ws : List AES.Word) : List Bool := ws.flatMap fun w => bytesBits w.reverse

theorem length_keyLayout (ws : List AES.Word) (h : ∀ w ∈ ws, w.length = 4) : (keyLayout ws).length = 32 * ws.length := by
  induction ws with
  | nil => rfl
  | cons w ws ih =>
    rw [keyLayout, List.flatMap_cons, List.length_append, length_bytesBits, List.length_reverse, h w List.mem_cons_self,
      ← keyLayout, ih (fun x hx => h x (List.mem_cons_of_mem _ hx))]
    simp; omega

theorem getD_keyLayout (ws : List AES.Word) (h : ∀ w ∈ ws, w.length = 4) (i b j : Nat) (hb : b < 4) (hj : j < 8) :
    (keyLayout ws).getD (32 * i + 8 * (3 - b) + j) false = bit ((ws.getD i []).getD b 0) j := by
  induction ws generalizing i with
  | nil => simp [keyLayout, bit]
  | cons w ws ih =>
    have hw := h w List.mem_cons_self
    rw [keyLayout, List.flatMap_cons]
    have hl : (bytesBits w.reverse).length = 32 := by rw [length_bytesBits, List.length_reverse, hw]
    cases i with
    | zero =>
      rw [List.getD_append _ _ _ _ (by omega), Nat.mul_zero, Nat.zero_add, getD_bytesBits _ _ _ hj, List.getD_cons_zero]
      congr 1
      rw [List.getD_eq_getElem?_getD, List.getD_eq_getElem?_getD, List.getElem?_reverse (by omega)]
      congr 2; omega
    | succ i =>
      rw [List.getD_append_right _ _ _ _ (by omega), List.getD_cons_succ, ← ih (fun x hx => h x (List.mem_cons_of_mem _ hx)),
        hl, ← keyLayout]
      congr 1; omega

theorem keyLayout_ext {ws : List AES.Word} (h : ∀ w ∈ ws, w.length = 4) {l : List Bool} (hl : l.length = 32 * ws.length)
    (he : ∀ i < ws.length, ∀ b < 4, ∀ j < 8, l.getD (32 * i + 8 * (3 - b) + j) false = bit ((ws.getD i []).getD b 0) j) :
    l = keyLayout ws := by
  apply List.ext_getElem (by rw [hl, length_keyLayout _ h])
  intro i h1 h2
  have := he (i / 32) (by omega) (3 - i % 32 / 8) (by omega) (i % 8) (by omega)
  rw [← getD_keyLayout _ h _ _ _ (by omega) (by omega),
    show 32 * (i / 32) + 8 * (3 - (3 - i % 32 / 8)) + i % 8 = i by omega] at this
  rwa [List.getD_eq_getElem _ _ h1, List.getD_eq_getElem _ _ h2] at this

/-! ### The cipher circuit -/

/-- The wires of the cipher circuit hold the states of the rounds. -/
theorem enc_rounds {W : Wires} (hW : ∀ i < aesEncKs.numGate, W (aesEncKs.gate i).o = (aesEncKs.gate i).out W)
    (ws : List AES.Word) (hs : IsSchedule ws) (msg : List Byte) (hm : msg.length = 16)
    (hk : ∀ r < 11, ∀ q < 16, wbyte W (keyWire r) q = (AES.roundKey ws r).getD q 0)
    (hi : ∀ q < 16, wbyte W (encVar 0) q = msg.getD q 0) (r : Nat) (hr : r < 10) :
    (AES.rounds ws msg r).length = 16 ∧ ∀ q < 16, wbyte W (encTarget r) q = (AES.rounds ws msg r).getD q 0 := by
  induction r with
  | zero =>
    have hl := (hs.roundKey 0 (by omega)).1
    refine ⟨by simp [AES.rounds, AES.addRoundKey, hl, hm], ?_⟩
    intro q hq
    rw [encFirst hW q hq, hi q hq, hk 0 (by omega) q hq, AES.rounds, AES.addRoundKey,
      getD_zipXor _ _ _ (by omega) (by omega)]
  | succ r ih =>
    obtain ⟨il, iv⟩ := ih (by omega)
    have hl := (hs.roundKey (r + 1) (by omega)).1
    refine ⟨by simp [AES.rounds, AES.addRoundKey, AES.mixColumns, hl], ?_⟩
    intro q hq
    have hsub : ∀ k, wbyte W (encVar (r + 1)) (shiftFrom (4 * (q / 4) + (q + k) % 4))
        = (AES.shiftRows (AES.subBytes (AES.rounds ws msg r))).getD (4 * (q / 4) + (q + k) % 4) 0 := by
      intro k
      have hlt : shiftFrom (4 * (q / 4) + (q + k) % 4) < 16 := by unfold shiftFrom; omega
      rw [getD_shiftRows _ _ (by omega), getD_subBytes _ _ (by omega), encSub hW r (by omega) _ hlt, iv _ hlt]
    have := encMid hW (r + 1) (by omega) hr q hq
    simp only [hsub] at this
    rw [this, hk _ (by omega) q hq, AES.rounds, AES.addRoundKey, getD_zipXor _ _ _ (by simp [AES.mixColumns]; omega) (by omega),
      AES.mixColumns, getD_map_range _ _ _ hq]

theorem enc_final {W : Wires} (hW : ∀ i < aesEncKs.numGate, W (aesEncKs.gate i).o = (aesEncKs.gate i).out W)
    (ws : List AES.Word) (hs : IsSchedule ws) (msg : List Byte) (hm : msg.length = 16)
    (hk : ∀ r < 11, ∀ q < 16, wbyte W (keyWire r) q = (AES.roundKey ws r).getD q 0)
    (hi : ∀ q < 16, wbyte W (encVar 0) q = msg.getD q 0) :
    (AES.cipher ws msg).length = 16 ∧ ∀ q < 16, wbyte W (encTarget 10) q = (AES.cipher ws msg).getD q 0 := by
  obtain ⟨il, iv⟩ := enc_rounds hW ws hs msg hm hk hi 9 (by omega)
  have hl := (hs.roundKey 10 (by omega)).1
  refine ⟨by simp [AES.cipher, AES.addRoundKey, AES.shiftRows, hl], ?_⟩
  intro q hq
  have hlt : shiftFrom q < 16 := by unfold shiftFrom; omega
  rw [encLast hW q hq, hk 10 (by omega) q hq, AES.cipher, AES.addRoundKey,
    getD_zipXor _ _ _ (by simp [AES.shiftRows]; omega) (by omega), getD_shiftRows _ _ hq, getD_subBytes _ _ (by omega),
    encSub hW 9 (by omega) _ hlt, iv _ hlt]

theorem getD_strToInt (s : List Byte) (q j : Nat) (hq : q < s.length) (hj : j < 8) :
    (strToInt s).getD (8 * s.length - 1 - (8 * q + j)) false = bit (s.getD q 0) j := by
  rw [← getD_bytesBits _ _ _ hj, ← strToInt_reverse]
  have hl : (strToInt s).length = 8 * s.length := by
    rw [← List.length_reverse, strToInt_reverse, length_bytesBits]
  rw [List.getD_eq_getElem?_getD, List.getD_eq_getElem?_getD, List.getElem?_reverse (by omega), hl]

/-- The output of the cipher circuit. -/
theorem enc_compute (junk : Wires) (ws : List AES.Word) (hs : IsSchedule ws) (msg : List Byte) (hm : msg.length = 16) :
    aesEncKs.compute junk (keyLayout ws) (strToInt msg) = .ok (bytesBits (AES.cipher ws msg)) := by
  have hlk : (keyLayout ws).length = 1408 := by rw [length_keyLayout _ hs.2, hs.1]
  have hlm : (strToInt msg).length = 128 := by
    rw [← List.length_reverse, strToInt_reverse, length_bytesBits, hm]
  rw [Circuit.compute, if_neg (by rw [hlk, hlm]; decide)]
  obtain ⟨hW, hin⟩ := ssa_sound encTree_ok (by decide) encSsa_ok (aesEncKs.start junk (keyLayout ws) (strToInt msg))
  show Except.ok _ = _
  congr 1
  generalize aesEncKs.run (aesEncKs.start junk (keyLayout ws) (strToInt msg)) aesEncKs.numGate = W at *
  have hk : ∀ r < 11, ∀ q < 16, wbyte W (keyWire r) q = (AES.roundKey ws r).getD q 0 := by
    intro r hr q hq
    apply byte_ext
    intro j hj
    have hkw : keyWire r (8 * q + j) = 32 * (4 * r + q / 4) + 8 * (3 - q % 4) + j := by
      unfold keyWire
      rw [show (8 * q + j) / 8 = q by omega, show (8 * q + j) / 32 = q / 4 by omega, show (8 * q + j) % 8 = j by omega]
      omega
    rw [bit_wbyte _ _ _ _ hj, hkw, (hs.roundKey r hr).2 q hq, ← getD_keyLayout _ hs.2 _ _ _ (by omega) hj]
    have h1 : 32 * (4 * r + q / 4) + 8 * (3 - q % 4) + j < 1408 := by omega
    rw [hin _ (by show _ < 1536; omega)]
    exact if_pos h1
  have hi : ∀ q < 16, wbyte W (encVar 0) q = msg.getD q 0 := by
    intro q hq
    apply byte_ext
    intro j hj
    rw [bit_wbyte _ _ _ _ hj, ← getD_strToInt _ _ _ (by omega) hj, encVar, if_pos (by omega), if_pos rfl,
      hin _ (by show _ < 1536; omega)]
    have h1 : ¬ 1535 - (8 * q + j) < 1408 := by omega
    have h2 : 1535 - (8 * q + j) < 1408 + 128 := by omega
    refine (if_neg h1).trans ((if_pos h2).trans ?_)
    have e : 1535 - (8 * q + j) - aesEncKs.n1 = 8 * msg.length - 1 - (8 * q + j) := by
      rw [hm]; show 1535 - (8 * q + j) - 1408 = _; omega
    rw [e]
  obtain ⟨fl, fv⟩ := enc_final hW ws hs msg hm hk hi
  apply bits_ext
  · rw [fl]; simp [aesEncKs]
  · intro q hq j hj
    rw [fl] at hq
    rw [← fv q hq, bit_wbyte _ _ _ _ hj, encTarget, if_neg (by omega)]
    rw [List.getD_eq_getElem _ _ (by simp [aesEncKs]; omega)]
    simp [aesEncKs]

/-! ### The key schedule circuit -/

theorem length_expand (key : List Byte) (n : Nat) : (AES.expand key n).length = 4 + n := by
  induction n with
  | zero => rfl
  | succ n ih => simp only [AES.expand, List.length_append, ih, List.length_cons, List.length_nil]; omega

theorem getD_expand (key : List Byte) (n k i : Nat) (hi : i < 4 + n) :
    (AES.expand key (n + k)).getD i [] = (AES.expand key n).getD i [] := by
  induction k with
  | zero => rfl
  | succ k ih =>
    rw [← Nat.add_assoc]
    simp only [AES.expand]
    rw [List.getD_append _ _ _ _ (by rw [length_expand]; omega), ih]

theorem expand_words (key : List Byte) (hk : key.length = 16) (n : Nat) : ∀ w ∈ AES.expand key n, w.length = 4 := by
  induction n with
  | zero =>
    intro w hw
    simp only [AES.expand, List.mem_cons, List.not_mem_nil, or_false] at hw
    rcases hw with h | h | h | h <;> subst h <;> simp [hk]
  | succ n ih =>
    intro w hw
    simp only [AES.expand, List.mem_append, List.mem_cons, List.not_mem_nil, or_false] at hw
    rcases hw with h | h
    · exact ih w h
    · subst h
      have hg : ∀ i < 4 + n, ((AES.expand key n).getD i []).length = 4 := by
        intro i hi
        rw [List.getD_eq_getElem _ _ (by rw [length_expand]; omega)]
        exact ih _ (List.getElem_mem _)
      have h1 := hg (4 + n - 1) (by omega)
      have h2 := hg (4 + n - 4) (by omega)
      simp only [AES.nextWord, length_expand]
      split
      · simp only [AES.xorWord, AES.subWord, AES.rotWord, AES.rcon, List.length_zipWith, List.length_map, List.length_append,
          List.length_drop, List.length_take, h1, h2, List.length_cons, List.length_nil]; decide
      · simp only [AES.xorWord, List.length_zipWith, h1, h2]; decide

theorem isSchedule_keyExpansion (key : List Byte) (hk : key.length = 16) : IsSchedule (AES.keyExpansion key) :=
  ⟨length_expand key 40, expand_words key hk 40⟩

theorem length_cipher (ws : List AES.Word) (hs : IsSchedule ws) (msg : List Byte) : (AES.cipher ws msg).length = 16 := by
  have hl := (hs.roundKey 10 (by omega)).1
  simp [AES.cipher, AES.addRoundKey, AES.shiftRows, hl]

theorem length_aes128 (key : List Byte) (hk : key.length = 16) (msg : List Byte) : (AES.aes128 key msg).length = 16 :=
  length_cipher _ (isSchedule_keyExpansion key hk) msg

/-- Byte `b` of word `i` of the key schedule. -/
def kbyte (key : List Byte) (i b : Nat) : Byte := ((AES.keyExpansion key).getD i []).getD b 0

theorem kbyte_first (key : List Byte) (i b : Nat) (hi : i < 4) (hb : b < 4) :
    kbyte key i b = key.getD (4 * i + b) 0 := by
  rw [kbyte, AES.keyExpansion, show (40 : Nat) = 0 + 40 from rfl, getD_expand key 0 40 i (by omega)]
  match i, hi with
  | 0, _ => simp [AES.expand, List.getD_eq_getElem?_getD, hb]
  | 1, _ => simp [AES.expand, List.getD_eq_getElem?_getD, hb]
  | 2, _ => simp [AES.expand, List.getD_eq_getElem?_getD, hb]
  | 3, _ => simp [AES.expand, List.getD_eq_getElem?_getD, hb]

theorem keyExpansion_next (key : List Byte) (i : Nat) (h4 : 4 ≤ i) (hi : i < 44) :
    (AES.keyExpansion key).getD i [] =
      AES.xorWord ((AES.keyExpansion key).getD (i - 4) [])
        (if i % 4 = 0 then
          AES.xorWord (AES.subWord (AES.rotWord ((AES.keyExpansion key).getD (i - 1) []))) (AES.rcon (i / 4))
        else (AES.keyExpansion key).getD (i - 1) []) := by
  obtain ⟨n, rfl⟩ : ∃ n, i = 4 + n := ⟨i - 4, by omega⟩
  have e1 : (AES.keyExpansion key).getD (4 + n) [] = AES.nextWord (AES.expand key n) := by
    rw [AES.keyExpansion, show (40 : Nat) = (n + 1) + (39 - n) by omega, getD_expand key (n + 1) (39 - n) _ (by omega)]
    simp only [AES.expand]
    rw [List.getD_append_right _ _ _ _ (by rw [length_expand]), length_expand, Nat.sub_self, List.getD_cons_zero]
  have e2 : ∀ k < 4 + n, (AES.keyExpansion key).getD k [] = (AES.expand key n).getD k [] := by
    intro k hk
    rw [AES.keyExpansion, show (40 : Nat) = n + (40 - n) by omega, getD_expand key n (40 - n) _ hk]
  rw [e1, e2 _ (by omega), e2 _ (by omega), AES.nextWord, length_expand]

theorem kword_length (key : List Byte) (hk : key.length = 16) (i : Nat) (hi : i < 44) :
    ((AES.keyExpansion key).getD i []).length = 4 := by
  have h := isSchedule_keyExpansion key hk
  rw [List.getD_eq_getElem _ _ (by rw [h.1]; omega)]
  exact h.2 _ (List.getElem_mem _)

theorem kbyte_next (key : List Byte) (hk : key.length = 16) (i b : Nat) (h4 : 4 ≤ i) (hi : i < 44) (hb : b < 4) :
    kbyte key i b = kbyte key (i - 4) b ^^^
      (if i % 4 = 0 then AES.sbox (kbyte key (i - 1) ((b + 1) % 4)) ^^^ (if b = 0 then AES.xpow 1 (i / 4 - 1) else 0)
      else kbyte key (i - 1) b) := by
  have h1 := kword_length key hk (i - 1) (by omega)
  have h2 := kword_length key hk (i - 4) (by omega)
  rw [kbyte, keyExpansion_next key i h4 hi]
  simp only [kbyte]
  generalize (AES.keyExpansion key).getD (i - 1) [] = u at *
  generalize (AES.keyExpansion key).getD (i - 4) [] = v at *
  match u, h1, v, h2 with
  | [u0, u1, u2, u3], _, [v0, v1, v2, v3], _ =>
    by_cases hm : i % 4 = 0
    · rw [if_pos hm, if_pos hm]
      match b, hb with
      | 0, _ | 1, _ | 2, _ | 3, _ => simp [AES.xorWord, AES.subWord, AES.rotWord, AES.rcon]
    · rw [if_neg hm, if_neg hm]
      match b, hb with
      | 0, _ | 1, _ | 2, _ | 3, _ => simp [AES.xorWord]

section
variable {W : Wires} (hW : ∀ i < aesKs.numGate, W (aesKs.gate i).o = (aesKs.gate i).out W)
include hW

theorem ksLayer (r : Nat) (hr : r < 11) (t : Nat) (ht : t < 128) :
    W (ksWire r t) = sum (fun v => if v = 0 then true else W (ksVar r (v - 1))) (ksForm r t) := by
  have hex : ∀ r < 11, ∀ t < 128, ∀ v ∈ ksForm r t, v < 320 := by decide +kernel
  exact linear_sound ksTree_ok (by decide) hW (by split <;> decide) (ksLin_ok r hr) t ht (hex r hr t ht)

theorem ksSub (r : Nat) (hr : r < 10) (b : Nat) (hb : b < 4) (j : Nat) (hj : j < 8) :
    W (rd 16 ksOut (32 * r + (8 * b + j))) = bit (AES.sbox (wbyte W (ksWire r) (12 + (b + 1) % 4))) j := by
  have := box_sound ksTree_ok (by decide) hW (ksBox_ok (4 * r + b) (by omega)) (wbyte W (ksWire r) (12 + (b + 1) % 4))
    (by
      intro j hj
      rw [bit_wbyte _ _ _ _ hj, show (4 * r + b) / 4 = r by omega, show (4 * r + b) % 4 = b by omega,
        show 8 * (12 + (b + 1) % 4) + j = 96 + 8 * ((b + 1) % 4) + j by omega]) j hj
  rw [← this, show 32 * r + (8 * b + j) = 8 * (4 * r + b) + j by omega]

/-- A bit of round key `r + 1`. -/
theorem ksRound (r : Nat) (hr : r < 10) (c b j : Nat) (hc : c < 4) (hb : b < 4) (hj : j < 8) :
    bit (wbyte W (ksWire (r + 1)) (4 * c + b)) j =
      (sum (fun c => bit (wbyte W (ksWire r) (4 * c + b)) j) (List.range (c + 1)) !=
        (bit (AES.sbox (wbyte W (ksWire r) (12 + (b + 1) % 4))) j != (decide (b = 0) && bit (AES.xpow 1 r) j))) := by
  rw [bit_wbyte _ _ _ _ hj, ksLayer hW (r + 1) (by omega) _ (by omega), ksForm, if_neg (by omega),
    show (8 * (4 * c + b) + j) / 32 = c by omega, show (8 * (4 * c + b) + j) % 32 = 8 * b + j by omega,
    show (8 * (4 * c + b) + j) / 8 % 4 = b by omega, show (8 * (4 * c + b) + j) % 8 = j by omega, sum_append, sum_append,
    sum_single, show r + 1 - 1 = r from rfl]
  have e1 : ∀ n ≤ 4, sum (fun v => if v = 0 then true else W (ksVar (r + 1) (v - 1)))
      ((List.range n).map fun c => 32 * c + (8 * b + j) + 1)
      = sum (fun c => bit (wbyte W (ksWire r) (4 * c + b)) j) (List.range n) := by
    intro n hn
    induction n with
    | zero => rfl
    | succ n ih =>
      rw [List.range_succ, List.map_append, sum_append, sum_append, ih (by omega), List.map_cons, List.map_nil, sum_single,
        sum_single, if_neg (by omega), bit_wbyte _ _ _ _ hj, ksVar, if_neg (by omega), if_pos (by omega), Nat.add_sub_cancel,
        Nat.add_sub_cancel, show 32 * n + (8 * b + j) = 8 * (4 * n + b) + j by omega]
  have e2 : (if 128 + (8 * b + j) + 1 = 0 then true else W (ksVar (r + 1) (128 + (8 * b + j) + 1 - 1)))
      = bit (AES.sbox (wbyte W (ksWire r) (12 + (b + 1) % 4))) j := by
    rw [if_neg (by omega), ksVar, if_neg (by omega), if_neg (by omega), ← ksSub hW r hr b hb j hj, Nat.add_sub_cancel,
      Nat.add_sub_cancel, Nat.add_sub_cancel_left]
  have e3 : sum (fun v => if v = 0 then true else W (ksVar (r + 1) (v - 1)))
      (if b = 0 ∧ (AES.xpow 1 r).getLsbD (7 - j) = true then [0] else []) = (decide (b = 0) && bit (AES.xpow 1 r) j) := by
    unfold bit
    cases (AES.xpow 1 r).getLsbD (7 - j) <;> by_cases h : b = 0 <;> simp [h, sum]
  rw [e1 _ (by omega), e2, e3]

end

theorem xor_shuffle : ∀ x y z : Bool, ((x != y) != z) = (y != (x != z)) := by decide

/-- The wires of the key schedule circuit hold the round keys. -/
theorem ks_rounds {W : Wires} (hW : ∀ i < aesKs.numGate, W (aesKs.gate i).o = (aesKs.gate i).out W)
    (key : List Byte) (hk : key.length = 16) (hi : ∀ q < 16, ∀ j < 8, W (127 - (8 * q + j)) = bit (key.getD q 0) j)
    (r : Nat) (hr : r < 11) : ∀ c < 4, ∀ b < 4, wbyte W (ksWire r) (4 * c + b) = kbyte key (4 * r + c) b := by
  induction r with
  | zero =>
    intro c hc b hb
    rw [Nat.mul_zero, Nat.zero_add, kbyte_first key c b hc hb]
    apply byte_ext
    intro j hj
    rw [bit_wbyte _ _ _ _ hj, ksLayer hW 0 (by omega) _ (by omega), ksForm, if_pos rfl, sum_single, if_neg (by omega), ksVar,
      if_pos rfl, Nat.add_sub_cancel, hi _ (by omega) _ hj]
  | succ r ih =>
    have ih := ih (by omega)
    intro c
    induction c with
    | zero =>
      intro hc b hb
      apply byte_ext
      intro j hj
      rw [ksRound hW r (by omega) 0 b j (by omega) hb hj, kbyte_next key hk _ _ (by omega) (by omega) hb,
        if_pos (by omega), show (4 * (r + 1) + 0) - 4 = 4 * r + 0 by omega, show (4 * (r + 1) + 0) - 1 = 4 * r + 3 by omega,
        show (4 * (r + 1) + 0) / 4 - 1 = r by omega, ← ih 0 (by omega) b hb, ← ih 3 (by omega) _ (by omega), bit_xor, bit_xor]
      have : List.range (0 + 1) = [0] := rfl
      rw [this, sum_single]
      by_cases h : b = 0
      · simp [h]
      · simp [h, bit]
    | succ c ihc =>
      intro hc b hb
      apply byte_ext
      intro j hj
      rw [ksRound hW r (by omega) (c + 1) b j hc hb hj, kbyte_next key hk _ _ (by omega) (by omega) hb,
        if_neg (by omega), show (4 * (r + 1) + (c + 1)) - 4 = 4 * r + (c + 1) by omega,
        show (4 * (r + 1) + (c + 1)) - 1 = 4 * (r + 1) + c by omega, ← ih (c + 1) hc b hb, ← ihc (by omega) b hb, bit_xor,
        ksRound hW r (by omega) c b j (by omega) hb hj, List.range_succ, sum_append, sum_single]
      exact xor_shuffle _ _ _

/-- The output of the key schedule circuit. -/
theorem ks_compute (junk : Wires) (key : List Byte) (hk : key.length = 16) :
    aesKs.compute junk (strToInt key) [] = .ok (keyLayout (AES.keyExpansion key)) := by
  have hs := isSchedule_keyExpansion key hk
  have hlm : (strToInt key).length = 128 := by
    rw [← List.length_reverse, strToInt_reverse, length_bytesBits, hk]
  rw [Circuit.compute, if_neg (by rw [hlm]; decide)]
  obtain ⟨hW, hin⟩ := ssa_sound ksTree_ok (by decide) ksSsa_ok (aesKs.start junk (strToInt key) [])
  refine congrArg Except.ok ?_
  generalize aesKs.run (aesKs.start junk (strToInt key) []) aesKs.numGate = W at *
  have hi : ∀ q < 16, ∀ j < 8, W (127 - (8 * q + j)) = bit (key.getD q 0) j := by
    intro q hq j hj
    rw [← getD_strToInt _ _ _ (by omega) hj, hin _ (by show _ < 128; omega)]
    have h1 : 127 - (8 * q + j) < 128 := by omega
    refine (if_pos h1).trans ?_
    have e : 127 - (8 * q + j) = 8 * key.length - 1 - (8 * q + j) := by rw [hk]
    rw [e]
  apply keyLayout_ext hs.2
  · rw [hs.1]; simp [aesKs]
  · intro i hi' b hb j hj
    rw [hs.1] at hi'
    have := ks_rounds hW key hk hi (i / 4) (by omega) (i % 4) (by omega) b hb
    rw [show 4 * (i / 4) + i % 4 = i by omega] at this
    show _ = bit (kbyte key i b) j
    rw [← this, bit_wbyte _ _ _ _ hj, List.getD_eq_getElem _ _ (by simp [aesKs]; omega)]
    simp only [aesKs, List.getElem_map, List.getElem_range]
    have e : ksWire (i / 4) (8 * (4 * (i % 4) + b) + j) = 7361 - 1408 + (32 * i + 8 * (3 - b) + j) := by
      unfold ksWire keyWire; omega
    rw [e]

end Verif.Lemmas.AESCircuit
