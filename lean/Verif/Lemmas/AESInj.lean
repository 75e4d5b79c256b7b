import Verif.Lemmas.AESCircuit

/-! AES-128 under a fixed key is one-to-one: every transformation of FIPS 197 has an inverse. -/

namespace Verif.Lemmas.AESInj
open Verif.Spec Verif.Lemmas.AESCircuit

abbrev Byte := BitVec 8

/-! ### The S-box -/

/-- The inverse of the affine transformation. -/
def invAffine (b : Byte) : Byte := b.rotateLeft 1 ^^^ b.rotateLeft 3 ^^^ b.rotateLeft 6 ^^^ 0x05

theorem sbox_inv (x : Byte) : AES.inv (invAffine (AES.sbox x)) = x := by
  revert x
  decide +kernel

theorem sbox_inj {x y : Byte} (h : AES.sbox x = AES.sbox y) : x = y := by
  rw [← sbox_inv x, h, sbox_inv]

theorem subBytes_inj {s t : AES.State} (h : AES.subBytes s = AES.subBytes t) : s = t := by
  unfold AES.subBytes at h
  exact (List.map_inj_right fun _ _ => sbox_inj).1 h

/-! ### Multiplication -/

theorem zx (x : Byte) : (0 : Byte) ^^^ x = x := BitVec.zero_xor

theorem sel_xor (p q : Bool) (t : Byte) :
    (if (p ^^ q) = true then t else 0) = (if p = true then t else 0) ^^^ (if q = true then t else 0) := by
  cases p <;> cases q <;> simp

theorem fold_sel (b : Byte) (f : Nat → Byte) (l : List Nat) (s : Byte) :
    l.foldl (fun s i => if b.getLsbD i then s ^^^ f i else s) s
      = s ^^^ l.foldl (fun s i => s ^^^ (if b.getLsbD i then f i else 0)) 0 := by
  have gen : ∀ (l : List Nat) (g : Nat → Byte) (s : Byte), l.foldl (fun s i => s ^^^ g i) s = s ^^^ l.foldl (fun s i => s ^^^ g i) 0 := by
    intro l g
    induction l with
    | nil => intro s; simp
    | cons a l ih =>
      intro s
      rw [List.foldl_cons, List.foldl_cons, ih, ih (0 ^^^ g a), zx, BitVec.xor_assoc]
  rw [← gen]
  congr 1
  funext s i
  split <;> simp

theorem fold_xor (l : List Nat) (g h : Nat → Byte) :
    l.foldl (fun s i => s ^^^ (g i ^^^ h i)) 0 = l.foldl (fun s i => s ^^^ g i) 0 ^^^ l.foldl (fun s i => s ^^^ h i) 0 := by
  have gen : ∀ (s t : Byte), l.foldl (fun s i => s ^^^ (g i ^^^ h i)) (s ^^^ t)
      = l.foldl (fun s i => s ^^^ g i) s ^^^ l.foldl (fun s i => s ^^^ h i) t := by
    induction l with
    | nil => intros; rfl
    | cons a l ih =>
      intro s t
      rw [List.foldl_cons, List.foldl_cons, List.foldl_cons, ← ih]
      congr 1
      ac_rfl
  have := gen 0 0
  rwa [BitVec.xor_self] at this

theorem mul_xor (a b c : Byte) : AES.mul a (b ^^^ c) = AES.mul a b ^^^ AES.mul a c := by
  unfold AES.mul
  rw [fold_sel, fold_sel, fold_sel, zx, zx, zx, ← fold_xor]
  congr 1
  funext s i
  rw [BitVec.getLsbD_xor, ← sel_xor]

/-! ### Columns -/

/-- The products that the inverse matrix makes with the matrix of `MixColumns`. -/
theorem inv_rows (x : Byte) :
    (AES.mul 0x0e (AES.mul 0x02 x) ^^^ AES.mul 0x0b x ^^^ AES.mul 0x0d x ^^^ AES.mul 0x09 (AES.mul 0x03 x) = x)
    ∧ (AES.mul 0x0e (AES.mul 0x03 x) ^^^ AES.mul 0x0b (AES.mul 0x02 x) ^^^ AES.mul 0x0d x ^^^ AES.mul 0x09 x = 0)
    ∧ (AES.mul 0x0e x ^^^ AES.mul 0x0b (AES.mul 0x03 x) ^^^ AES.mul 0x0d (AES.mul 0x02 x) ^^^ AES.mul 0x09 x = 0)
    ∧ (AES.mul 0x0e x ^^^ AES.mul 0x0b x ^^^ AES.mul 0x0d (AES.mul 0x03 x) ^^^ AES.mul 0x09 (AES.mul 0x02 x) = 0) := by
  revert x
  decide +kernel

/-- One byte of a column after `MixColumns`. -/
def mix (a b c d : Byte) : Byte := AES.mul 0x02 a ^^^ AES.mul 0x03 b ^^^ c ^^^ d

theorem unmix (a b c d : Byte) :
    AES.mul 0x0e (mix a b c d) ^^^ AES.mul 0x0b (mix b c d a) ^^^ AES.mul 0x0d (mix c d a b) ^^^ AES.mul 0x09 (mix d a b c) = a := by
  have h1 := (inv_rows a).1
  have h2 := (inv_rows b).2.1
  have h3 := (inv_rows c).2.2.1
  have h4 := (inv_rows d).2.2.2
  unfold mix
  simp only [mul_xor]
  generalize AES.mul 0x0e (AES.mul 0x02 a) = a1 at *
  generalize AES.mul 0x0b a = a2 at *
  generalize AES.mul 0x0d a = a3 at *
  generalize AES.mul 0x09 (AES.mul 0x03 a) = a4 at *
  generalize AES.mul 0x0e (AES.mul 0x03 b) = b1 at *
  generalize AES.mul 0x0b (AES.mul 0x02 b) = b2 at *
  generalize AES.mul 0x0d b = b3 at *
  generalize AES.mul 0x09 b = b4 at *
  generalize AES.mul 0x0e c = c1 at *
  generalize AES.mul 0x0b (AES.mul 0x03 c) = c2 at *
  generalize AES.mul 0x0d (AES.mul 0x02 c) = c3 at *
  generalize AES.mul 0x09 c = c4 at *
  generalize AES.mul 0x0e d = d1 at *
  generalize AES.mul 0x0b d = d2 at *
  generalize AES.mul 0x0d (AES.mul 0x03 d) = d3 at *
  generalize AES.mul 0x09 (AES.mul 0x02 d) = d4 at *
  have : a1 ^^^ b1 ^^^ c1 ^^^ d1 ^^^ (b2 ^^^ c2 ^^^ d2 ^^^ a2) ^^^ (c3 ^^^ d3 ^^^ a3 ^^^ b3) ^^^ (d4 ^^^ a4 ^^^ b4 ^^^ c4)
      = (a1 ^^^ a2 ^^^ a3 ^^^ a4) ^^^ (b1 ^^^ b2 ^^^ b3 ^^^ b4) ^^^ (c1 ^^^ c2 ^^^ c3 ^^^ c4) ^^^ (d1 ^^^ d2 ^^^ d3 ^^^ d4) := by ac_rfl
  rw [this, h1, h2, h3, h4]
  simp

theorem getD_mixColumns (s : AES.State) (i : Nat) (hi : i < 16) :
    (AES.mixColumns s).getD i 0 = mix (s.getD (4 * (i / 4) + i % 4) 0) (s.getD (4 * (i / 4) + (i + 1) % 4) 0)
      (s.getD (4 * (i / 4) + (i + 2) % 4) 0) (s.getD (4 * (i / 4) + (i + 3) % 4) 0) := by
  unfold AES.mixColumns
  rw [List.getD_eq_getElem _ _ (by simp; omega)]
  simp [mix]

theorem state_ext {s t : AES.State} (hs : s.length = 16) (ht : t.length = 16) (h : ∀ i < 16, s.getD i 0 = t.getD i 0) : s = t := by
  apply List.ext_getElem (by rw [hs, ht])
  intro i h1 h2
  have := h i (by omega)
  rwa [List.getD_eq_getElem _ _ h1, List.getD_eq_getElem _ _ h2] at this

theorem mixColumns_inj {s t : AES.State} (hs : s.length = 16) (ht : t.length = 16) (h : AES.mixColumns s = AES.mixColumns t) : s = t := by
  apply state_ext hs ht
  intro i hi
  have hu : ∀ s : AES.State, AES.mul 0x0e ((AES.mixColumns s).getD (4 * (i / 4) + i % 4) 0)
      ^^^ AES.mul 0x0b ((AES.mixColumns s).getD (4 * (i / 4) + (i + 1) % 4) 0)
      ^^^ AES.mul 0x0d ((AES.mixColumns s).getD (4 * (i / 4) + (i + 2) % 4) 0)
      ^^^ AES.mul 0x09 ((AES.mixColumns s).getD (4 * (i / 4) + (i + 3) % 4) 0) = s.getD i 0 := by
    intro s
    rw [getD_mixColumns _ _ (by omega), getD_mixColumns _ _ (by omega), getD_mixColumns _ _ (by omega), getD_mixColumns _ _ (by omega)]
    have e : ∀ k j, 4 * ((4 * (i / 4) + (i + k) % 4) / 4) + (4 * (i / 4) + (i + k) % 4 + j) % 4 = 4 * (i / 4) + (i + (k + j)) % 4 := by omega
    have e0 := fun j => e 0 j
    simp only [Nat.add_zero, Nat.zero_add] at e0
    have e1 : ∀ k, 4 * ((4 * (i / 4) + (i + k) % 4) / 4) + (4 * (i / 4) + (i + k) % 4) % 4 = 4 * (i / 4) + (i + k) % 4 := by omega
    have e2 : 4 * ((4 * (i / 4) + i % 4) / 4) + (4 * (i / 4) + i % 4) % 4 = 4 * (i / 4) + i % 4 := by omega
    rw [e2, e0, e0, e0, e1 1, e1 2, e1 3, e 1 1, e 1 2, e 1 3, e 2 1, e 2 2, e 2 3, e 3 1, e 3 2, e 3 3]
    have m4 : (i + (1 + 3)) % 4 = i % 4 := by omega
    have m7 : (i + (2 + 3)) % 4 = (i + 1) % 4 := by omega
    have m9 : (i + (3 + 3)) % 4 = (i + 2) % 4 := by omega
    have m1 : (i + (1 + 1)) % 4 = (i + 2) % 4 := by omega
    have m2 : (i + (1 + 2)) % 4 = (i + 3) % 4 := by omega
    simp only [m1, m2, m4, m7, m9, unmix]
    congr 1
    omega
  rw [← hu s, ← hu t, h]

/-! ### Rows, keys, rounds -/

theorem shiftRows_inj {s t : AES.State} (hs : s.length = 16) (ht : t.length = 16) (h : AES.shiftRows s = AES.shiftRows t) : s = t := by
  apply state_ext hs ht
  intro i hi
  have hu : ∀ s : AES.State, (AES.shiftRows s).getD (4 * ((i / 4 + 4 - i % 4) % 4) + i % 4) 0 = s.getD i 0 := by
    intro s
    unfold AES.shiftRows
    rw [List.getD_eq_getElem _ _ (by simp; omega)]
    simp only [List.getElem_map, List.getElem_range]
    congr 1
    omega
  rw [← hu s, ← hu t, h]

theorem addRoundKey_inj {s t k : AES.State} (hs : s.length = 16) (ht : t.length = 16) (hk : k.length = 16)
    (h : AES.addRoundKey s k = AES.addRoundKey t k) : s = t := by
  unfold AES.addRoundKey at h
  apply List.ext_getElem (by rw [hs, ht])
  intro i h1 h2
  have h3 : i < (List.zipWith (· ^^^ ·) s k).length := by simp; omega
  have h4 : i < (List.zipWith (· ^^^ ·) t k).length := by simp; omega
  have e : (List.zipWith (· ^^^ ·) s k)[i] = (List.zipWith (· ^^^ ·) t k)[i] := by simp only [h]
  rw [List.getElem_zipWith, List.getElem_zipWith] at e
  have := congrArg (· ^^^ k[i]) e
  simpa [BitVec.xor_assoc] using this

theorem length_rounds {ws : List AES.Word} (hw : IsSchedule ws) (s : AES.State) (hs : s.length = 16) (r : Nat) (hr : r < 11) :
    (AES.rounds ws s r).length = 16 := by
  have hl := (hw.roundKey r hr).1
  cases r with
  | zero => simp [AES.rounds, AES.addRoundKey, hl, hs]
  | succ r => simp [AES.rounds, AES.addRoundKey, AES.mixColumns, hl]

theorem rounds_inj {ws : List AES.Word} (hw : IsSchedule ws) {s t : AES.State} (hs : s.length = 16) (ht : t.length = 16) (r : Nat) (hr : r < 11)
    (h : AES.rounds ws s r = AES.rounds ws t r) : s = t := by
  induction r with
  | zero => exact addRoundKey_inj hs ht (hw.roundKey 0 hr).1 h
  | succ r ih =>
    have h1 := addRoundKey_inj (by simp [AES.mixColumns]) (by simp [AES.mixColumns]) (hw.roundKey (r + 1) hr).1 h
    have h2 := mixColumns_inj (by simp [AES.shiftRows]) (by simp [AES.shiftRows]) h1
    have h3 := shiftRows_inj (by simp [AES.subBytes, length_rounds hw s hs r (by omega)])
      (by simp [AES.subBytes, length_rounds hw t ht r (by omega)]) h2
    exact ih (by omega) (subBytes_inj h3)

theorem cipher_inj {ws : List AES.Word} (hw : IsSchedule ws) {s t : AES.State} (hs : s.length = 16) (ht : t.length = 16)
    (h : AES.cipher ws s = AES.cipher ws t) : s = t := by
  have h1 := addRoundKey_inj (by simp [AES.shiftRows]) (by simp [AES.shiftRows]) (hw.roundKey 10 (by omega)).1 h
  have h3 := shiftRows_inj (by simp [AES.subBytes, length_rounds hw s hs 9 (by omega)])
    (by simp [AES.subBytes, length_rounds hw t ht 9 (by omega)]) h1
  exact rounds_inj hw hs ht 9 (by omega) (subBytes_inj h3)

/-- AES-128 is one-to-one. -/
theorem aes128_inj {key s t : List Byte} (hk : key.length = 16) (hs : s.length = 16) (ht : t.length = 16)
    (h : AES.aes128 key s = AES.aes128 key t) : s = t :=
  cipher_inj (isSchedule_keyExpansion key hk) hs ht h

end Verif.Lemmas.AESInj
