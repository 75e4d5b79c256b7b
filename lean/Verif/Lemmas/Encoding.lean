import Verif.Lemmas.BlockConv
import Verif.Spec.Encoding
import Mathlib.Tactic.Ring

/-! Lemmas for the encoding properties. -/

namespace Verif.Lemmas
open Verif.Model Verif.Model.Integer Verif.Spec.Encoding

theorem val_flatten_reverse (w : Nat) (ins : List Integer) (h : ∀ x ∈ ins, x.length = w) :
    val ins.reverse.flatten = positional w (ins.map val) := by
  induction ins with
  | nil => rfl
  | cons x xs ih =>
    have hx : ∀ y ∈ xs, y.length = w := fun y hy => h y (List.mem_cons_of_mem _ hy)
    have hlen : ∀ (l : List Integer), (∀ y ∈ l, y.length = w) → l.reverse.flatten.length = w * l.length := by
      intro l
      induction l with
      | nil => intro _; rfl
      | cons y ys ih2 =>
        intro hl
        rw [List.reverse_cons, List.flatten_append, List.length_append,
          ih2 (fun z hz => hl z (List.mem_cons_of_mem _ hz))]
        simp [hl y (List.mem_cons_self), Nat.mul_succ]
    rw [List.reverse_cons, List.flatten_append, val_append, ih hx, hlen xs hx]
    simp only [List.flatten_cons, List.flatten_nil, List.append_nil, List.map_cons, positional, List.length_map]
    rw [Nat.pow_mul, Nat.mul_comm, Nat.add_comm]

theorem xor_append {a b c d : Integer} (h : a.length = c.length) :
    Integer.xor (a ++ b) (c ++ d) = Integer.xor a c ++ Integer.xor b d := by
  unfold Integer.xor; exact List.zipWith_append h

theorem xor_zeros_left (n : Nat) (x : Integer) (h : x.length = n) :
    Integer.xor (List.replicate n false) x = x := by
  subst h
  unfold Integer.xor
  induction x with
  | nil => rfl
  | cons b bs ih => simp [List.replicate_succ, ih]

theorem xor_zeros_right (n : Nat) (x : Integer) (h : x.length = n) :
    Integer.xor x (List.replicate n false) = x := by
  subst h
  unfold Integer.xor
  induction x with
  | nil => rfl
  | cons b bs ih => simp [List.replicate_succ, ih]

theorem intvec_step (s len k : Nat) (x P : Integer) (hx : x.length = s) (hP : P.length = k * s)
    (hk : k < len) :
    Integer.xor (List.replicate ((len - k) * s) false ++ P)
      (shl (Integer.xor (ofNat (s * len) 0) (resize x (s * len))) ((len - 1 - k) * s))
    = List.replicate ((len - (k + 1)) * s) false ++ (x ++ P) := by
  obtain ⟨m, rfl⟩ : ∃ m, len = k + 1 + m := ⟨len - (k + 1), by omega⟩
  have e1 : k + 1 + m - k = m + 1 := by omega
  have e2 : k + 1 + m - 1 - k = m := by omega
  have e3 : k + 1 + m - (k + 1) = m := by omega
  rw [e1, e2, e3]
  have hr : resize x (s * (k + 1 + m)) = x ++ List.replicate ((k + m) * s) false := by
    unfold resize
    have : s ≤ s * (k + 1 + m) := Nat.le_mul_of_pos_right _ (by omega)
    rw [List.take_of_length_le (by omega), hx]
    congr 2
    have : s * (k + 1 + m) = (k + m) * s + s := by ring
    omega
  have hl : (resize x (s * (k + 1 + m))).length = s * (k + 1 + m) := by
    rw [hr, List.length_append, hx, List.length_replicate]; ring
  rw [ofNat_zero, xor_zeros_left _ _ hl]
  have hsh : shl (resize x (s * (k + 1 + m))) (m * s)
      = List.replicate (m * s) false ++ (x ++ List.replicate (k * s) false) := by
    unfold Integer.shl
    have e : s * (k + 1 + m) = m * s + (k * s + s) := by ring
    rw [hl, if_neg (by omega)]
    congr 1
    have : s * (k + 1 + m) - m * s = x.length + k * s := by omega
    have e : (k + m) * s = k * s + m * s := by ring
    rw [this, hr, List.take_append, e, List.take_replicate]
    rw [List.take_of_length_le (by omega)]
    congr 2
    omega
  rw [hsh]
  have e : (m + 1) * s = m * s + s := by ring
  rw [e, ← List.replicate_append_replicate, List.append_assoc, xor_append rfl, xor_zeros_left _ _ (by simp),
    xor_append (by simp [hx]), xor_zeros_left _ _ hx, xor_zeros_right _ _ hP]

theorem intvecToInt_eq (ins : List Integer) (s : Nat) (h0 : ins ≠ []) (h : ∀ x ∈ ins, x.length = s) :
    intvecToInt ins = .ok (concat [] ins) := by
  have key : ∀ (l : List Integer) (k len : Nat) (P : Integer), (∀ x ∈ l, x.length = s) →
      P.length = k * s → k + l.length ≤ len →
      (l.zipIdx k).foldl (fun out p =>
        Integer.xor out (shl (Integer.xor (ofNat (s * len) 0) (resize p.1 (s * len))) ((len - 1 - p.2) * s)))
        (List.replicate ((len - k) * s) false ++ P)
      = List.replicate ((len - (k + l.length)) * s) false ++ concat P l := by
    intro l
    induction l with
    | nil => intro k len P _ _ _; simp [concat]
    | cons x xs ih =>
      intro k len P hl hP hlen
      simp only [List.length_cons] at hlen ⊢
      rw [List.zipIdx_cons, List.foldl_cons]
      simp only
      rw [intvec_step s len k x P (hl x List.mem_cons_self) hP (by omega)]
      rw [ih (k + 1) len (x ++ P) (fun y hy => hl y (List.mem_cons_of_mem _ hy))
        (by rw [List.length_append, hP, hl x List.mem_cons_self]; ring) (by omega)]
      rw [Nat.add_assoc, Nat.add_comm 1]
      rfl
  match ins, h0 with
  | x0 :: xs, _ =>
    have hs : x0.length = s := h x0 List.mem_cons_self
    unfold intvecToInt
    have := key (x0 :: xs) 0 (x0 :: xs).length [] h (by simp) (by simp)
    simp only [Nat.zero_add, Nat.sub_self, Nat.zero_mul, List.replicate_zero, List.nil_append, Nat.sub_zero,
      List.append_nil] at this
    simp only [hs]
    rw [ofNat_zero] at this ⊢
    rw [Nat.mul_comm _ s] at this
    rw [this]

theorem ofNat8_reverse (b : Byte) : (ofNat 8 b.toNat).reverse = byteBits b := by
  rw [ofNat_reverse]
  simp [Verif.Spec.SHA256.beBits, byteBits, BitVec.getLsbD]

theorem strToInt_reverse (s : List Byte) : (strToInt s).reverse = bytesBits s := by
  unfold strToInt ofBytes bytesBits
  rw [List.reverse_flatMap, List.reverse_reverse]
  congr 1
  funext b
  simp only [Function.comp, ofNat8_reverse]

theorem toBytes_cons (l rest : Integer) (h : l.length = 8) :
    toBytes (l ++ rest) = BitVec.ofNat 8 (val l) :: toBytes rest := by
  match l, h with
  | b :: bs, h =>
    rw [List.cons_append, toBytes]
    rw [← List.cons_append, List.take_left' h, List.drop_left' h]

theorem toBytes_ofBytes (s : List Byte) : toBytes (ofBytes s) = s := by
  induction s with
  | nil => simp [ofBytes, toBytes]
  | cons b bs ih =>
    have : ofBytes (b :: bs) = ofNat 8 b.toNat ++ ofBytes bs := rfl
    rw [this, toBytes_cons _ _ (by simp), ih, val_ofNat]
    congr 1
    apply BitVec.eq_of_toNat_eq
    simp
    exact b.isLt

@[simp] theorem length_byteBits (b : Byte) : (byteBits b).length = 8 := rfl

@[simp] theorem length_bytesBits (s : List Byte) : (bytesBits s).length = 8 * s.length := by
  induction s with
  | nil => rfl
  | cons b bs ih =>
    rw [bytesBits, List.flatMap_cons, List.length_append]
    have : (List.flatMap byteBits bs).length = 8 * bs.length := ih
    rw [this]; simp; omega

@[simp] theorem length_ofBytes (s : List Byte) : (ofBytes s).length = 8 * s.length := by
  induction s with
  | nil => rfl
  | cons b bs ih =>
    have : ofBytes (b :: bs) = ofNat 8 b.toNat ++ ofBytes bs := rfl
    rw [this, List.length_append, ih, length_ofNat]; simp; omega

theorem byte_of_bits (c : Nat → Bool) :
    byteBits ((List.range 8).foldl (fun tmp j => if c j then tmp ^^^ (1#8 <<< (7 - j)) else tmp) 0#8)
      = (List.range 8).map c := by
  simp only [List.range, List.range.loop, List.foldl, List.map]
  generalize c 0 = c0; generalize c 1 = c1; generalize c 2 = c2; generalize c 3 = c3
  generalize c 4 = c4; generalize c 5 = c5; generalize c 6 = c6; generalize c 7 = c7
  revert c0 c1 c2 c3 c4 c5 c6 c7
  decide

theorem flatMap_range_eq (l : List Bool) (n : Nat) (h : l.length = 8 * n) :
    ((List.range n).flatMap fun i => (List.range 8).map fun j => l.getD (8 * i + j) false) = l := by
  induction n generalizing l with
  | zero =>
    have : l = [] := List.length_eq_zero_iff.1 (by omega)
    simp [this]
  | succ n ih =>
    rw [List.range_succ_eq_map (n := n), List.flatMap_cons, List.flatMap_map]
    have h1 : ((List.range 8).map fun j => l.getD (8 * 0 + j) false) = l.take 8 := by
      apply List.ext_getElem
      · simp; omega
      · intro i h1 h2
        have : i < l.length := by simp at h2; omega
        simp [List.getD_eq_getElem?_getD, this]
    have h2 := ih (l.drop 8) (by simp; omega)
    rw [h1]
    conv_rhs => rw [← List.take_append_drop 8 l, ← h2]
    congr 2
    funext i
    apply List.map_congr_left
    intro j _
    simp only [List.getD_eq_getElem?_getD, List.getElem?_drop]
    have : 8 * i.succ + j = 8 + (8 * i + j) := by omega
    rw [this]

theorem integerToChars_bits (x : Integer) (h : x.length % 8 = 0) :
    ∃ l, integerToChars x = .ok l ∧ bytesBits l = x.reverse := by
  refine ⟨_, by rw [integerToChars, if_pos h], ?_⟩
  unfold bytesBits
  rw [List.flatMap_map]
  simp only [byte_of_bits]
  exact flatMap_range_eq _ _ (by simp; omega)

theorem byteBits_inj {a b : Byte} (h : byteBits a = byteBits b) : a = b := by
  simp only [byteBits, List.cons.injEq, and_true] at h
  apply BitVec.eq_of_getLsbD_eq
  intro i hi
  obtain ⟨h7, h6, h5, h4, h3, h2, h1, h0⟩ := h
  have : i = 0 ∨ i = 1 ∨ i = 2 ∨ i = 3 ∨ i = 4 ∨ i = 5 ∨ i = 6 ∨ i = 7 := by omega
  rcases this with rfl | rfl | rfl | rfl | rfl | rfl | rfl | rfl <;> assumption

theorem bytesBits_inj {a b : List Byte} (h : bytesBits a = bytesBits b) : a = b := by
  induction a generalizing b with
  | nil =>
    cases b with
    | nil => rfl
    | cons y ys => simp [bytesBits, byteBits] at h
  | cons x xs ih =>
    cases b with
    | nil => simp [bytesBits, byteBits] at h
    | cons y ys =>
      simp only [bytesBits, List.flatMap_cons] at h
      have := List.append_inj h (by simp)
      rw [byteBits_inj this.1, ih this.2]

theorem hexValue_hexDigit (n : Nat) (h : n < 16) : hexValue (hexDigit n) = some n := by
  have : ∀ i : Fin 16, hexValue (hexDigit i.val) = some i.val := by decide
  exact this ⟨n, h⟩

theorem hex2_value (n : Nat) (h : n < 256) :
    (hex2 n).map hexValue = [some (n / 16), some (n % 16)] := by
  simp only [hex2, List.map_cons, List.map_nil]
  rw [hexValue_hexDigit _ (by omega), hexValue_hexDigit _ (by omega)]

end Verif.Lemmas
