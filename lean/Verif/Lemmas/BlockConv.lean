import Verif.Lemmas.Integer

/-! Lemmas about the conversions between blocks and byte strings. -/

namespace Verif.Lemmas
open Verif.Model

theorem getLsbD_blockOfBytes (l : List Byte) (i : Nat) :
    (blockOfBytes l).getLsbD i = (decide (i < 128) && (l.getD (i / 8) 0#8).getLsbD (i % 8)) := by
  induction l generalizing i with
  | nil => simp [blockOfBytes]
  | cons x xs ih =>
    have e : blockOfBytes (x :: xs) = (blockOfBytes xs <<< 8) ||| x.setWidth 128 := rfl
    rw [e, BitVec.getLsbD_or, BitVec.getLsbD_shiftLeft, BitVec.getLsbD_setWidth]
    by_cases h : i < 128
    · by_cases h8 : i < 8
      · have e1 : i / 8 = 0 := by omega
        have e2 : i % 8 = i := by omega
        simp [h, h8, e1, e2]
      · have e1 : i / 8 = (i - 8) / 8 + 1 := by omega
        have e2 : i % 8 = (i - 8) % 8 := by omega
        have e3 : i - 8 < 128 := by omega
        have e4 : x.getLsbD i = false := BitVec.getLsbD_of_ge _ _ (by omega)
        rw [ih, e1, e2, e4]
        simp [h, h8, e3]
    · simp [h]

@[simp] theorem length_blockBytes (b : Block) : (blockBytes b).length = 16 := by simp [blockBytes]

theorem getElem_blockBytes (b : Block) (i : Nat) (h : i < (blockBytes b).length) :
    (blockBytes b)[i] = (b >>> (8 * i)).setWidth 8 := by
  simp [blockBytes]

theorem blockOfBytes_blockBytes (b : Block) : blockOfBytes (blockBytes b) = b := by
  apply BitVec.eq_of_getLsbD_eq; intro i hi
  rw [getLsbD_blockOfBytes]
  have h1 : i / 8 < (blockBytes b).length := by simp; omega
  have h2 : i % 8 < 8 := by omega
  have h3 : 8 * (i / 8) + i % 8 = i := by omega
  rw [List.getD_eq_getElem?_getD, List.getElem?_eq_getElem h1, Option.getD_some, getElem_blockBytes]
  rw [BitVec.getLsbD_setWidth, BitVec.getLsbD_ushiftRight, h3]
  simp [hi, h2]

theorem blockBytes_blockOfBytes (l : List Byte) (h : l.length = 16) : blockBytes (blockOfBytes l) = l := by
  apply List.ext_getElem
  · simp [h]
  · intro i h1 h2
    rw [getElem_blockBytes]
    apply BitVec.eq_of_getLsbD_eq; intro k hk
    rw [BitVec.getLsbD_setWidth, BitVec.getLsbD_ushiftRight, getLsbD_blockOfBytes]
    have e1 : (8 * i + k) / 8 = i := by omega
    have e2 : (8 * i + k) % 8 = k := by omega
    have e3 : 8 * i + k < 128 := by omega
    rw [e1, e2, List.getD_eq_getElem?_getD, List.getElem?_eq_getElem h2, Option.getD_some]
    simp [e3, hk]

@[simp] theorem length_blocksOfBytes (n : Nat) (l : List Byte) : (blocksOfBytes n l).length = n := by
  induction n generalizing l with
  | zero => rfl
  | succ n ih => simp [blocksOfBytes, ih]

theorem flatMap_blocksOfBytes (n : Nat) (l : List Byte) (h : l.length = 16 * n) :
    (blocksOfBytes n l).flatMap blockBytes = l := by
  induction n generalizing l with
  | zero =>
    have : l = [] := List.length_eq_zero_iff.1 (by omega)
    simp [blocksOfBytes, this]
  | succ n ih =>
    simp only [blocksOfBytes, List.flatMap_cons]
    rw [ih _ (by simp; omega), blockBytes_blockOfBytes _ (by simp; omega), List.take_append_drop]

theorem blocksOfBytes_flatMap (bs : List Block) :
    blocksOfBytes bs.length (bs.flatMap blockBytes) = bs := by
  induction bs with
  | nil => rfl
  | cons b bs ih =>
    simp only [List.length_cons, blocksOfBytes, List.flatMap_cons]
    rw [List.take_left' (by simp), List.drop_left' (by simp), blockOfBytes_blockBytes, ih]

theorem length_flatMap_blockBytes (bs : List Block) : (bs.flatMap blockBytes).length = 16 * bs.length := by
  induction bs with
  | nil => rfl
  | cons b bs ih => rw [List.flatMap_cons, List.length_append, ih]; simp; omega

@[simp] theorem length_blockToHex (bs : List Block) : (blockToHex bs).length = 16 * bs.length := by
  rw [blockToHex, List.length_reverse, length_flatMap_blockBytes, List.length_reverse]

theorem blockToHex_eq (bs : List Block) : blockToHex bs = bs.flatMap (fun b => (blockBytes b).reverse) := by
  unfold blockToHex
  induction bs with
  | nil => rfl
  | cons b bs ih =>
    rw [List.reverse_cons, List.flatMap_append, List.reverse_append, ih]
    simp

theorem getLsbD_makeBlock (hi lo : BitVec 64) (i : Nat) :
    (makeBlock hi lo).getLsbD i = if i < 64 then lo.getLsbD i else hi.getLsbD (i - 64) := by
  unfold makeBlock
  rw [BitVec.getLsbD_cast, BitVec.getLsbD_append]

/-- `integer_to_block` puts bit `i` of the vector at bit `i` of the block. -/
theorem integerToBlock_spec (x : Integer) (h : x.length = 128) :
    ∃ b, integerToBlock x = .ok b ∧ ∀ i, i < 128 → b.getLsbD i = x.getD i false := by
  refine ⟨_, by rw [integerToBlock, if_neg (by simp [h])], ?_⟩
  have key : ∀ n, n ≤ 64 → ∀ k, k < 128 →
      ((List.range n).foldl (fun b i =>
        let b := if x.getD i false then b ^^^ makeBlock 0 (1#64 <<< i) else b
        if x.getD (i + 64) false then b ^^^ makeBlock (1#64 <<< i) 0 else b) 0#128).getLsbD k
      = if k % 64 < n then x.getD k false else false := by
    intro n
    induction n with
    | zero => intro _ k _; simp
    | succ n ih =>
      intro hn k hk
      rw [List.range_succ, List.foldl_append]
      simp only [List.foldl_cons, List.foldl_nil]
      have ih' := ih (by omega) k hk
      generalize hB : (List.range n).foldl (fun b i =>
        let b := if x.getD i false then b ^^^ makeBlock 0 (1#64 <<< i) else b
        if x.getD (i + 64) false then b ^^^ makeBlock (1#64 <<< i) 0 else b) 0#128 = B at ih' ⊢
      have m1 : (makeBlock 0#64 (1#64 <<< n)).getLsbD k = decide (k = n) := by
        rw [getLsbD_makeBlock]
        split
        · rw [BitVec.getLsbD_shiftLeft, BitVec.getLsbD_one]
          by_cases hkn : k = n
          · subst hkn; simp; omega
          · simp [hkn]; omega
        · have : ¬ (k = n) := by omega
          simp [this]
      have m2 : (makeBlock (1#64 <<< n) 0#64).getLsbD k = decide (k = n + 64) := by
        rw [getLsbD_makeBlock]
        split
        · have : ¬ (k = n + 64) := by omega
          simp [this]
        · rw [BitVec.getLsbD_shiftLeft, BitVec.getLsbD_one]
          by_cases hkn : k = n + 64
          · subst hkn; simp; omega
          · simp [hkn]; omega
      have goal : ∀ (p q : Bool), p = x.getD n false → q = x.getD (n + 64) false →
          (if q then (if p then B ^^^ makeBlock 0#64 (1#64 <<< n) else B) ^^^ makeBlock (1#64 <<< n) 0#64
            else (if p then B ^^^ makeBlock 0#64 (1#64 <<< n) else B)).getLsbD k
          = if k % 64 < n + 1 then x.getD k false else false := by
        intro p q hp hq
        by_cases h1 : k = n
        · have c1 : ¬ (k % 64 < n) := by omega
          have c2 : k % 64 < n + 1 := by omega
          have c3 : ¬ (k = n + 64) := by omega
          rw [if_neg c1] at ih'
          rw [if_pos c2, h1, ← hp]
          rw [h1] at m1 m2 ih'
          cases p <;> cases q <;> simp [m1, m2, ih'] <;> omega
        · by_cases h2 : k = n + 64
          · have c1 : ¬ (k % 64 < n) := by omega
            have c2 : k % 64 < n + 1 := by omega
            rw [if_neg c1] at ih'
            rw [if_pos c2, h2, ← hq]
            rw [h2] at m1 m2 ih'
            cases p <;> cases q <;> simp [m1, m2, ih'] <;> omega
          · have c : (if k % 64 < n + 1 then x.getD k false else false)
                = if k % 64 < n then x.getD k false else false := by
                by_cases hh : k % 64 < n
                · rw [if_pos hh, if_pos (by omega)]
                · rw [if_neg hh, if_neg (by omega)]
            rw [c, ← ih']
            simp only [h1, h2, decide_false] at m1 m2
            cases p <;> cases q <;> simp [m1, m2]
      exact goal _ _ rfl rfl
  intro i hi
  have := key 64 (Nat.le_refl _) i hi
  rw [if_pos (by omega)] at this
  exact this

end Verif.Lemmas
