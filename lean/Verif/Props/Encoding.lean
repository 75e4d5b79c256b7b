import Verif.Lemmas.Encoding

/-!
C01, C02, C03: concatenation, slicing, and conversions between secret integers, blocks and byte strings.

The bit string of an integer is read most significant bit first: `x.reverse`.
-/

namespace Verif.Props
open Verif.Model Verif.Model.Integer Verif.Lemmas Verif.Spec.Encoding

/-! ### C01 -/

/-- C01: in the most-significant-first reading `concat` appends the words, in order, to the accumulator; any
widths. -/
theorem C01_concat_bits (res : Integer) (ins : List Integer) :
    (concat res ins).reverse = res.reverse ++ (ins.map List.reverse).flatten := concat_reverse res ins

/-- C01: the value of a concatenation of `w`-bit words is their base-`2^w` positional value. -/
theorem C01_concat_value (w : Nat) (ins : List Integer) (h : ∀ x ∈ ins, x.length = w) :
    val (concat [] ins) = positional w (ins.map val) := by
  rw [concat_eq, List.append_nil, val_flatten_reverse w ins h]

example : val (concat [] [ofNat 32 0xdeadbeef, ofNat 32 7]) = 0xdeadbeef * 2 ^ 32 + 7 := by
  rw [C01_concat_value 32 _ (by simp)]; simp [positional, val_ofNat]

/-- C01: the optimised and the moving variants write the same bits as `concat`. -/
theorem C01_concat_variants (res : Integer) (ins : List Integer) :
    concatOpt res ins = concat res ins ∧ moveConcat res ins = concat res ins :=
  ⟨concatOpt_eq res ins, rfl⟩

/-- C01: `intvec_to_int` of a nonempty vector of equal width words is their concatenation: the positional value,
on exactly `w * len` bits. -/
theorem C01_intvec (w : Nat) (ins : List Integer) (h0 : ins ≠ []) (h : ∀ x ∈ ins, x.length = w) :
    ∃ r, intvecToInt ins = .ok r ∧ r = concat [] ins ∧ r.length = w * ins.length
      ∧ val r = positional w (ins.map val) := by
  refine ⟨_, intvecToInt_eq ins w h0 h, rfl, ?_, C01_concat_value w ins h⟩
  rw [concat_eq, List.append_nil]
  clear h0
  induction ins with
  | nil => rfl
  | cons x xs ih =>
    rw [List.reverse_cons, List.flatten_append, List.length_append,
      ih (fun y hy => h y (List.mem_cons_of_mem _ hy))]
    simp [h x List.mem_cons_self, Nat.mul_succ]

example : ∃ r, intvecToInt [ofNat 32 1, ofNat 32 2] = .ok r ∧ val r = 2 ^ 32 + 2 := by
  obtain ⟨r, h1, _, _, h2⟩ := C01_intvec 32 [ofNat 32 1, ofNat 32 2] (by simp) (by simp)
  exact ⟨r, h1, by rw [h2]; simp [positional, val_ofNat]⟩

/-- C01: `reverse_concat` is the mirrored order: the first word is the least significant one. -/
theorem C01_reverse_concat (res : Integer) (ins : List Integer) :
    reverseConcat res ins = res ++ ins.flatten
      ∧ reverseConcat [] ins = concat [] ins.reverse := by
  refine ⟨reverseConcat_eq res ins, ?_⟩
  rw [reverseConcat_eq, concat_eq]; simp

/-- C01: `extract_integer` returns the requested slice counted from the most significant end. -/
theorem C01_extract (src : Integer) (offset size : Nat) (h : offset + size ≤ src.length) :
    ∃ r, extractInteger src offset size = .ok r ∧ r.reverse = (src.reverse.drop offset).take size
      ∧ r.length = size := by
  obtain ⟨r, h1, h2⟩ := extract_reverse src offset size h
  refine ⟨r, h1, h2, ?_⟩
  rw [← List.length_reverse, h2]
  simp; omega

/-- C01: exactly the slices inside the integer are defined. -/
theorem C01_extract_defined (src : Integer) (offset size : Nat) :
    (∃ r, extractInteger src offset size = .ok r) ↔ offset + size ≤ src.length := by
  unfold extractInteger
  split <;> simp_all

/-- C01: slicing a concatenation at the position of a piece gives that piece back. -/
theorem C01_extract_concat (pre post : List Integer) (x : Integer) :
    extractInteger (concat [] (pre ++ x :: post)) (pre.map List.length).sum x.length = .ok x := by
  have hlen : ∀ l : List Integer, l.reverse.flatten.length = (l.map List.length).sum := by
    intro l; simp [List.length_flatten, List.sum_reverse]
  have hs : concat [] (pre ++ x :: post)
      = post.reverse.flatten ++ (x ++ pre.reverse.flatten) := by
    rw [concat_eq]; simp
  unfold extractInteger
  rw [hs]
  simp only [List.length_append, hlen]
  rw [if_pos (by omega)]
  congr 1
  have e : (post.map List.length).sum + (x.length + (pre.map List.length).sum) - (pre.map List.length).sum
      - x.length = (post.map List.length).sum := by omega
  rw [e, List.drop_left' (hlen post), List.take_left' rfl]

example : extractInteger (concat [] [ofNat 128 5, ofNat 32 9, ofNat 96 1]) 128 32 = .ok (ofNat 32 9) := by
  simpa using C01_extract_concat [ofNat 128 5] [ofNat 96 1] (ofNat 32 9)

/-! ### C02 -/

/-- C02: reading back what `block_to_hex` wrote. -/
theorem C02_hex_of_block (bs : List Block) : hexToBlock (blockToHex bs) = .ok bs := by
  unfold hexToBlock
  rw [if_neg (by simp)]
  congr 1
  rw [length_blockToHex, blockToHex, List.reverse_reverse, Nat.mul_div_cancel_left _ (by omega : 0 < 16)]
  have := blocksOfBytes_flatMap bs.reverse
  rw [List.length_reverse] at this
  rw [this, List.reverse_reverse]

/-- C02: writing what `hex_to_block` read gives the same bytes. -/
theorem C02_block_of_hex (l : List Byte) (h : l.length % 16 = 0) :
    ∃ bs, hexToBlock l = .ok bs ∧ blockToHex bs = l ∧ bs.length = l.length / 16 := by
  refine ⟨_, by rw [hexToBlock, if_neg (by simpa using h)], ?_, by simp⟩
  rw [blockToHex, List.reverse_reverse, flatMap_blocksOfBytes _ _ (by simp; omega), List.reverse_reverse]

/-- C02: `hex_to_block` reports an error exactly for the lengths that are not multiples of 16. -/
theorem C02_error_iff (l : List Byte) :
    (∃ e, hexToBlock l = .error e) ↔ l.length % 16 ≠ 0 := by
  unfold hexToBlock
  split <;> simp_all

/-- C02: byte `k` of the string is byte `15 - k % 16` of block `k / 16`. -/
theorem C02_byte_position (bs : List Block) (k : Nat) (h : k < 16 * bs.length) :
    (blockToHex bs)[k]? = some ((bs.getD (k / 16) 0 >>> (8 * (15 - k % 16))).setWidth 8) := by
  rw [blockToHex_eq]
  induction bs generalizing k with
  | nil => simp at h
  | cons b bs ih =>
    rw [List.flatMap_cons]
    by_cases hk : k < 16
    · rw [List.getElem?_append_left (by simpa using hk), List.getElem?_reverse (by simpa using hk)]
      have e1 : k / 16 = 0 := by omega
      have e2 : k % 16 = k := by omega
      rw [e1, e2, List.getElem?_eq_getElem (by simp; omega), getElem_blockBytes]
      simp
    · rw [List.getElem?_append_right (by simp; omega)]
      simp only [List.length_reverse, length_blockBytes]
      have e1 : k / 16 = (k - 16) / 16 + 1 := by omega
      have e2 : k % 16 = (k - 16) % 16 := by omega
      rw [ih (k - 16) (by simp at h; omega), e1, e2]
      simp

example : hexToBlock ((List.range 16).map fun i => BitVec.ofNat 8 i)
    = .ok [0x000102030405060708090a0b0c0d0e0f#128] := by decide

/-! ### C03 -/

/-- C03: `str_to_int` is big-endian: the bit string of the integer is the bit string of the text. -/
theorem C03_str_bits (s : List Byte) : (strToInt s).reverse = bytesBits s := strToInt_reverse s

/-- C03: revealing the bytes of `str_to_int(s)` gives `s` back (in the little-endian order of `reveal`, so
reversed), nothing lost. -/
theorem C03_str_roundtrip (s : List Byte) :
    (toBytes (strToInt s)).reverse = s ∧ integerToChars (strToInt s) = .ok s := by
  constructor
  · rw [strToInt, toBytes_ofBytes, List.reverse_reverse]
  · obtain ⟨l, h1, h2⟩ := integerToChars_bits (strToInt s) (by simp [strToInt])
    rw [strToInt_reverse] at h2
    rw [h1, bytesBits_inj h2]

/-- C03: `integer_to_chars` writes the bytes most significant first. -/
theorem C03_chars (x : Integer) (h : x.length % 8 = 0) :
    ∃ l, integerToChars x = .ok l ∧ l.length = x.length / 8 ∧ bytesBits l = x.reverse := by
  obtain ⟨l, h1, h2⟩ := integerToChars_bits x h
  refine ⟨l, h1, ?_, h2⟩
  have := congrArg List.length h2
  simp at this; omega

/-- C03: `str_to_int(integer_to_chars(x)) = x`. -/
theorem C03_chars_roundtrip (x : Integer) (h : x.length % 8 = 0) :
    ∃ l, integerToChars x = .ok l ∧ strToInt l = x := by
  obtain ⟨l, h1, _, h2⟩ := C03_chars x h
  refine ⟨l, h1, ?_⟩
  rw [← strToInt_reverse] at h2
  exact List.reverse_inj.1 h2

example : integerToChars (ofNat 16 0x4142) = .ok [0x41, 0x42] := by decide

/-- C03: `int_to_hex` writes every 32-bit word as its eight hexadecimal digits, most significant first. -/
theorem C03_hex32 (v : List (BitVec 32)) :
    (intToHex32 v).map hexValue
      = v.flatMap fun x => (List.range 8).map fun i => some (x.toNat / 16 ^ (7 - i) % 16) := by
  unfold intToHex32
  rw [List.map_flatMap]
  congr 1
  funext x
  have hx : ∀ j < 4, ((x &&& (0xFF#32 <<< (8 * j))) >>> (8 * j)).toNat = x.toNat / 256 ^ j % 256 := by
    intro j hj
    have : (x &&& (0xFF#32 <<< (8 * j))) >>> (8 * j) = (x >>> (8 * j)) &&& 0xFF#32 := by
      apply BitVec.eq_of_getLsbD_eq; intro i hi
      simp only [BitVec.getLsbD_ushiftRight, BitVec.getLsbD_and, BitVec.getLsbD_shiftLeft]
      have hFF : ∀ k, (0xFF#32).getLsbD k = decide (k < 8) := by
        intro k
        by_cases hk : k < 32
        · have : ∀ k : Fin 32, (0xFF#32).getLsbD k.val = decide (k.val < 8) := by decide
          exact this ⟨k, hk⟩
        · rw [BitVec.getLsbD_of_ge _ _ (by omega)]; simp; omega
      rw [hFF, hFF]
      by_cases h8 : i < 8
      · have : 8 * j + i < 32 := by omega
        simp [h8, this]
      · simp [h8]
    rw [this, BitVec.toNat_and, BitVec.toNat_ushiftRight, Nat.shiftRight_eq_div_pow]
    have : (0xFF#32).toNat = 2 ^ 8 - 1 := rfl
    rw [this, Nat.and_two_pow_sub_one_eq_mod, Nat.pow_mul]
  rw [List.map_flatMap]
  simp only [List.flatMap_cons, List.flatMap_nil, List.append_nil]
  rw [hx 3 (by omega), hx 2 (by omega), hx 1 (by omega), hx 0 (by omega)]
  simp only [hex2_value _ (Nat.mod_lt _ (by decide : 0 < 256))]
  simp only [List.range, List.range.loop, List.map, List.cons_append, List.nil_append]
  norm_num
  omega

/-- C03: the same for 64-bit words. -/
theorem C03_hex64 (v : List (BitVec 64)) :
    (intToHex64 v).map hexValue
      = v.flatMap fun x => (List.range 16).map fun i => some (x.toNat / 16 ^ (15 - i) % 16) := by
  unfold intToHex64
  rw [List.map_flatMap]
  congr 1
  funext x
  have hx : ∀ j < 8, ((x &&& (0xFF#64 <<< (8 * j))) >>> (8 * j)).toNat = x.toNat / 256 ^ j % 256 := by
    intro j hj
    have : (x &&& (0xFF#64 <<< (8 * j))) >>> (8 * j) = (x >>> (8 * j)) &&& 0xFF#64 := by
      apply BitVec.eq_of_getLsbD_eq; intro i hi
      simp only [BitVec.getLsbD_ushiftRight, BitVec.getLsbD_and, BitVec.getLsbD_shiftLeft]
      have hFF : ∀ k, (0xFF#64).getLsbD k = decide (k < 8) := by
        intro k
        by_cases hk : k < 64
        · have : ∀ k : Fin 64, (0xFF#64).getLsbD k.val = decide (k.val < 8) := by decide
          exact this ⟨k, hk⟩
        · rw [BitVec.getLsbD_of_ge _ _ (by omega)]; simp; omega
      rw [hFF, hFF]
      by_cases h8 : i < 8
      · have : 8 * j + i < 64 := by omega
        simp [h8, this]
      · simp [h8]
    rw [this, BitVec.toNat_and, BitVec.toNat_ushiftRight, Nat.shiftRight_eq_div_pow]
    have : (0xFF#64).toNat = 2 ^ 8 - 1 := rfl
    rw [this, Nat.and_two_pow_sub_one_eq_mod, Nat.pow_mul]
  rw [List.map_flatMap]
  simp only [List.flatMap_cons, List.flatMap_nil, List.append_nil]
  rw [hx 7 (by omega), hx 6 (by omega), hx 5 (by omega), hx 4 (by omega),
    hx 3 (by omega), hx 2 (by omega), hx 1 (by omega), hx 0 (by omega)]
  simp only [hex2_value _ (Nat.mod_lt _ (by decide : 0 < 256))]
  simp only [List.range, List.range.loop, List.map, List.cons_append, List.nil_append]
  norm_num
  omega

/-- C03: the digits of a word determine it: its value is their positional value. -/
theorem C03_digits_value (n : Nat) (x : Nat) (h : x < 16 ^ n) :
    positional 4 ((List.range n).map fun i => x / 16 ^ (n - 1 - i) % 16) = x := by
  induction n generalizing x with
  | zero => simp at h; simp [positional, h]
  | succ n ih =>
    rw [List.range_succ_eq_map, List.map_cons, List.map_map, positional]
    simp only [List.length_map, List.length_range]
    have e : (List.range n).map ((fun i => x / 16 ^ (n + 1 - 1 - i) % 16) ∘ Nat.succ)
        = (List.range n).map fun i => (x % 16 ^ n) / 16 ^ (n - 1 - i) % 16 := by
      apply List.map_congr_left
      intro i hi
      simp only [List.mem_range] at hi
      simp only [Function.comp]
      have e1 : n + 1 - 1 - i.succ = n - 1 - i := by omega
      rw [e1]
      obtain ⟨d, hd⟩ : ∃ d, n = (n - 1 - i) + 1 + d := ⟨i, by omega⟩
      generalize n - 1 - i = m at hd
      subst hd
      rw [Nat.pow_add, Nat.pow_succ, Nat.mul_assoc]
      rw [Nat.mod_mul_right_div_self, Nat.mod_mul_right_mod]
    rw [e, ih _ (Nat.mod_lt _ (Nat.pow_pos (by omega)))]
    have : x / 16 ^ n < 16 := Nat.div_lt_of_lt_mul (by rw [Nat.pow_succ] at h; exact h)
    simp only [Nat.add_sub_cancel, Nat.sub_zero]
    rw [Nat.mod_eq_of_lt this]
    exact Nat.div_add_mod' x (16 ^ n)

example : intToHex32 [0xdeadbeef] = "deadbeef".toList := by decide

end Verif.Props
