import Verif.Model.GarblerKey
import Verif.Lemmas.AESInj

/-! The key schedule backwards: the key from the last round key. -/

namespace Verif.Lemmas.KeyBack
open Verif.Model Verif.Model.GC Verif.Lemmas.AESCircuit
open Verif.Spec
open Verif.Spec.Encoding

theorem xor_cancel : ∀ (p q : List (BitVec 8)), p.length = q.length → List.zipWith (· ^^^ ·) (List.zipWith (· ^^^ ·) p q) q = p
  | [], _, _ => rfl
  | _ :: _, [], h => by cases h
  | a :: p, b :: q, h => by
    rw [List.zipWith_cons_cons, List.zipWith_cons_cons, xor_cancel p q (by simpa using h), BitVec.xor_assoc, BitVec.xor_self, BitVec.xor_zero]

theorem xor_cancel' (p q : List (BitVec 8)) (h : p.length = q.length) : List.zipWith (· ^^^ ·) (List.zipWith (· ^^^ ·) p q) p = q := by
  have e : List.zipWith (· ^^^ ·) p q = List.zipWith (· ^^^ ·) q p := by
    rw [List.zipWith_comm]
    congr
    funext a b
    exact BitVec.xor_comm _ _
  rw [e, xor_cancel q p h.symm]

/-- Word `i` of the key schedule. -/
def word (key : List Byte) (i : Nat) : AES.Word := (AES.expand key 40).getD i []

theorem word_expand (key : List Byte) (n i : Nat) (hn : n ≤ 40) (hi : i < 4 + n) : (AES.expand key n).getD i [] = word key i := by
  unfold word
  rw [show (40 : Nat) = n + (40 - n) by omega, getD_expand key n _ i hi]

theorem word_length (key : List Byte) (hk : key.length = 16) (i : Nat) (hi : i < 44) : (word key i).length = 4 := by
  unfold word
  have h : i < (AES.expand key 40).length := by rw [length_expand]; omega
  rw [List.getD_eq_getElem _ _ h]
  exact expand_words key hk 40 _ (List.getElem_mem h)

theorem word_step (key : List Byte) (n : Nat) (hn : n < 40) :
    word key (4 + n) = AES.xorWord (word key n) (if n % 4 = 0 then AES.xorWord (AES.subWord (AES.rotWord (word key (3 + n)))) (AES.rcon (n / 4 + 1)) else word key (3 + n)) := by
  rw [← word_expand key (n + 1) (4 + n) (by omega) (by omega)]
  have hl := length_expand key n
  show (AES.expand key n ++ [AES.nextWord (AES.expand key n)]).getD (4 + n) [] = _
  rw [List.getD_append_right _ _ _ _ (by omega), hl, Nat.sub_self, List.getD_cons_zero]
  unfold AES.nextWord
  simp only [hl]
  rw [show 4 + n - 1 = 3 + n by omega, show 4 + n - 4 = n by omega, word_expand key n _ (by omega) (by omega), word_expand key n _ (by omega) (by omega),
    show (4 + n) / 4 = n / 4 + 1 by omega]
  by_cases h : n % 4 = 0
  · rw [if_pos (by omega), if_pos h]
  · rw [if_neg (by omega), if_neg h]

/-- The words of a round key. -/
def quad (key : List Byte) (r : Nat) : List AES.Word := [word key (4 * r), word key (4 * r + 1), word key (4 * r + 2), word key (4 * r + 3)]

theorem before_quad (key : List Byte) (hk : key.length = 16) (r : Nat) (hr : r < 10) : wordsBefore (r + 1) (quad key (r + 1)) = quad key r := by
  have L := word_length key hk
  have e0 := word_step key (4 * r) (by omega)
  have e1 := word_step key (4 * r + 1) (by omega)
  have e2 := word_step key (4 * r + 2) (by omega)
  have e3 := word_step key (4 * r + 3) (by omega)
  rw [if_pos (by omega), show 4 * r / 4 = r by omega, show 3 + 4 * r = 4 * r + 3 by omega, show 4 + 4 * r = 4 * (r + 1) by omega] at e0
  rw [if_neg (by omega), show 3 + (4 * r + 1) = 4 * (r + 1) by omega, show 4 + (4 * r + 1) = 4 * (r + 1) + 1 by omega] at e1
  rw [if_neg (by omega), show 3 + (4 * r + 2) = 4 * (r + 1) + 1 by omega, show 4 + (4 * r + 2) = 4 * (r + 1) + 2 by omega] at e2
  rw [if_neg (by omega), show 3 + (4 * r + 3) = 4 * (r + 1) + 2 by omega, show 4 + (4 * r + 3) = 4 * (r + 1) + 3 by omega] at e3
  have d3 : AES.xorWord (word key (4 * (r + 1) + 3)) (word key (4 * (r + 1) + 2)) = word key (4 * r + 3) := by
    rw [e3]; exact xor_cancel _ _ (by rw [L _ (by omega), L _ (by omega)])
  have d2 : AES.xorWord (word key (4 * (r + 1) + 2)) (word key (4 * (r + 1) + 1)) = word key (4 * r + 2) := by
    rw [e2]; exact xor_cancel _ _ (by rw [L _ (by omega), L _ (by omega)])
  have d1 : AES.xorWord (word key (4 * (r + 1) + 1)) (word key (4 * (r + 1))) = word key (4 * r + 1) := by
    rw [e1]; exact xor_cancel _ _ (by rw [L _ (by omega), L _ (by omega)])
  have d0 : AES.xorWord (word key (4 * (r + 1))) (AES.xorWord (AES.subWord (AES.rotWord (word key (4 * r + 3)))) (AES.rcon (r + 1))) = word key (4 * r) := by
    rw [e0]
    refine xor_cancel _ _ ?_
    have := L (4 * r + 3) (by omega)
    rw [L _ (by omega)]
    simp [AES.xorWord, AES.subWord, AES.rotWord, AES.rcon, this]
  simp only [wordsBefore, quad, List.getD_cons_zero, List.getD_cons_succ]
  rw [d3, d2, d1, d0]

theorem first_quad (key : List Byte) (hk : key.length = 16) : ∀ r ≤ 10, wordsFirst r (quad key r) = quad key 0
  | 0, _ => rfl
  | r + 1, h => by
    show wordsFirst r (wordsBefore (r + 1) (quad key (r + 1))) = _
    rw [before_quad key hk r (by omega), first_quad key hk r (by omega)]

theorem quad_zero (key : List Byte) (hk : key.length = 16) : (quad key 0).flatten = key := by
  unfold quad
  rw [← word_expand key 0 _ (by omega) (by omega), ← word_expand key 0 _ (by omega) (by omega), ← word_expand key 0 _ (by omega) (by omega), ← word_expand key 0 _ (by omega) (by omega)]
  match key, hk with
  | [_, _, _, _, _, _, _, _, _, _, _, _, _, _, _, _], _ => rfl

theorem four_of (l : List AES.Word) (i : Nat) (h : i + 3 < l.length) : (l.drop i).take 4 = [l.getD i [], l.getD (i + 1) [], l.getD (i + 2) [], l.getD (i + 3) []] := by
  rw [List.getD_eq_getElem _ _ (by omega), List.getD_eq_getElem _ _ (by omega), List.getD_eq_getElem _ _ (by omega), List.getD_eq_getElem _ _ h,
    List.drop_eq_getElem_cons (by omega : i < l.length), List.drop_eq_getElem_cons (by omega : i + 1 < l.length), List.drop_eq_getElem_cons (by omega : i + 1 + 1 < l.length),
    List.drop_eq_getElem_cons (by omega : i + 1 + 1 + 1 < l.length)]
  rfl

theorem last_quad (key : List Byte) : ((AES.keyExpansion key).drop 40).take 4 = quad key 10 :=
  four_of _ 40 (by unfold AES.keyExpansion; rw [length_expand]; omega)

theorem split_four (a b c d : AES.Word) (ha : a.length = 4) (hb : b.length = 4) (hc : c.length = 4) (hd : d.length = 4) :
    [([a, b, c, d].flatten).take 4, ([a, b, c, d].flatten.drop 4).take 4, ([a, b, c, d].flatten.drop 8).take 4, ([a, b, c, d].flatten.drop 12).take 4] = [a, b, c, d] := by
  match a, b, c, d, ha, hb, hc, hd with
  | [_, _, _, _], [_, _, _, _], [_, _, _, _], [_, _, _, _], _, _, _, _ => rfl

/-- The key from a block and the state before the last round. -/
theorem keyOf_eq (key msg : List Byte) (hk : key.length = 16) :
    keyOf (AES.aes128 key msg) (AES.rounds (AES.keyExpansion key) msg 9) = key := by
  have L := word_length key hk
  have hr : AES.roundKey (AES.keyExpansion key) 10 = (quad key 10).flatten := by
    unfold AES.roundKey; exact congrArg List.flatten (last_quad key)
  have h1 : List.zipWith (· ^^^ ·) (AES.aes128 key msg) (AES.shiftRows (AES.subBytes (AES.rounds (AES.keyExpansion key) msg 9))) = (quad key 10).flatten := by
    rw [← hr]
    refine xor_cancel' _ _ ?_
    rw [((isSchedule_keyExpansion key hk).roundKey 10 (by omega)).1]
    simp [AES.shiftRows]
  unfold keyOf
  simp only [h1]
  have h2 := split_four (word key 40) (word key 41) (word key 42) (word key 43) (L _ (by omega)) (L _ (by omega)) (L _ (by omega)) (L _ (by omega))
  have h3 : quad key 10 = [word key 40, word key 41, word key 42, word key 43] := rfl
  rw [h3, h2, ← h3, first_quad key hk 10 (by omega), quad_zero key hk]

/-- A byte of the last round key. -/
theorem last_byte {ws : List AES.Word} (hw : IsSchedule ws) (msg : List Byte) (hm : msg.length = 16) (i : Nat) (hi : i < 16) :
    (AES.cipher ws msg).getD i 0 ^^^ AES.sbox ((AES.rounds ws msg 9).getD (rowFrom i) 0) = (AES.roundKey ws 10).getD i 0 := by
  have hl := (hw.roundKey 10 (by omega)).1
  have hr := Verif.Lemmas.AESInj.length_rounds hw msg hm 9 (by omega)
  have hf : rowFrom i < 16 := by unfold rowFrom; omega
  have h1 : (AES.cipher ws msg).getD i 0 = AES.sbox ((AES.rounds ws msg 9).getD (rowFrom i) 0) ^^^ (AES.roundKey ws 10).getD i 0 := by
    unfold AES.cipher AES.addRoundKey
    rw [List.getD_eq_getElem _ _ (by simp [AES.shiftRows, hl, hi]), List.getElem_zipWith, List.getD_eq_getElem (AES.roundKey ws 10) _ (by omega)]
    refine congrArg (· ^^^ _) ?_
    unfold AES.shiftRows AES.subBytes
    rw [List.getElem_map, List.getElem_range, List.getD_eq_getElem _ _ (by rw [List.length_map, hr]; exact hf), List.getElem_map,
      List.getD_eq_getElem _ _ (by rw [hr]; exact hf)]
    rfl
  rw [h1, BitVec.xor_comm, ← BitVec.xor_assoc, BitVec.xor_self, BitVec.zero_xor]

end Verif.Lemmas.KeyBack
