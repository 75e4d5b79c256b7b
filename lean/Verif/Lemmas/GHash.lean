import Verif.Lemmas.GCM
import Mathlib.Algebra.Polynomial.Roots
import Mathlib.SetTheory.Cardinal.Finite

/-! GHASH as a polynomial in the hash key: two different strings have the same hash (or hashes with a given difference) for few keys. -/

namespace Verif.Lemmas.GHash
open Verif.Model Verif.Lemmas Polynomial
open Verif.Spec (gcmGhash gcmMul)
open Verif.Spec.GCM (hashInput blocks pad be64 blockOf bytesOf)

/-- The polynomial of GHASH, last block first. -/
noncomputable def rp : List Block → F128[X]
  | [] => 0
  | x :: xs => X * (C ⟨x⟩ + rp xs)

theorem rp_zero (xs : List Block) : (rp xs).coeff 0 = 0 := by
  cases xs <;> simp [rp]

theorem rp_one (x : Block) (xs : List Block) : (rp (x :: xs)).coeff 1 = ⟨x⟩ := by
  rw [rp, coeff_X_mul, coeff_add, rp_zero]; simp

theorem rp_eval (h : F128) (xs : List Block) : (rp xs).eval h = polySum h 0 xs := by
  induction xs with
  | nil => simp [rp, polySum]
  | cons x xs ih =>
    simp only [rp, polySum, eval_mul, eval_X, eval_add, eval_C, ih]
    rw [polySum_shift h (0 + 1)]
    ring

theorem rp_degree (xs : List Block) : (rp xs).natDegree ≤ xs.length := by
  induction xs with
  | nil => simp [rp]
  | cons x xs ih =>
    rw [rp, List.length_cons]
    refine (natDegree_mul_le).trans ?_
    have h1 : (C (⟨x⟩ : F128) + rp xs).natDegree ≤ xs.length := (natDegree_add_le _ _).trans (by simp [ih])
    have h2 : (X : F128[X]).natDegree ≤ 1 := natDegree_X_le
    omega

theorem rp_inj : ∀ {xs ys : List Block}, xs.length = ys.length → rp xs = rp ys → xs = ys
  | [], [], _, _ => rfl
  | [], _ :: _, h, _ => by simp at h
  | _ :: _, [], h, _ => by simp at h
  | x :: xs, y :: ys, h, e => by
    have h1 : x = y := by
      have := congrArg (fun p => p.coeff 1) e
      simp only [rp_one] at this
      exact congrArg F128.val this
    subst h1
    simp only [rp] at e
    have e2 := mul_left_cancel₀ X_ne_zero e
    rw [rp_inj (by simpa using h) (add_left_cancel e2)]

theorem ghash_poly (h : Block) (xs : List Block) : gcmGhash h xs = ((rp xs.reverse).eval ⟨h⟩).val := by
  have h1 := ghash_eq_horner ⟨h⟩ xs
  have h2 := polySum_reverse ⟨h⟩ xs.reverse
  rw [List.reverse_reverse] at h2
  rw [rp_eval, h2, ← h1, Model.ghash]
  have : (fun (y xi : Block) => mulBlock (y ^^^ xi) h) = fun y x => gcmMul (y ^^^ x) h := by
    funext y x; exact mulBlock_eq_gcmMul _ _
  rw [this]
  rfl

/-- Two strings of blocks with different polynomials: the hashes have a given difference for few keys. -/
theorem ghash_bound {xs ys : List Block} (hne : rp xs.reverse ≠ rp ys.reverse) (δ : Block) :
    Nat.card { h : Block // gcmGhash h xs ^^^ gcmGhash h ys = δ } ≤ max xs.length ys.length := by
  classical
  have hp : rp xs.reverse - rp ys.reverse - C (F128.mk δ) ≠ 0 := by
    intro e
    apply hne
    have e1 : rp xs.reverse = rp ys.reverse + C (F128.mk δ) := by linear_combination e
    have e2 := congrArg (fun p => p.coeff 0) e1
    simp only [coeff_add, rp_zero, coeff_C_zero, zero_add] at e2
    rw [e1, ← e2]; simp
  have hf : ∀ h : { h : Block // gcmGhash h xs ^^^ gcmGhash h ys = δ },
      (⟨h.1⟩ : F128) ∈ (rp xs.reverse - rp ys.reverse - C (F128.mk δ)).roots.toFinset := by
    intro h
    rw [Multiset.mem_toFinset, mem_roots hp, IsRoot, eval_sub, eval_sub, eval_C]
    have := h.2
    rw [ghash_poly, ghash_poly] at this
    ext1
    show (((rp xs.reverse).eval (F128.mk h.1)).val ^^^ ((rp ys.reverse).eval (F128.mk h.1)).val) ^^^ δ = 0#128
    rw [this, BitVec.xor_self]
  have h1 : Nat.card { h : Block // gcmGhash h xs ^^^ gcmGhash h ys = δ }
      ≤ Nat.card { x // x ∈ (rp xs.reverse - rp ys.reverse - C (F128.mk δ)).roots.toFinset } := by
    refine Nat.card_le_card_of_injective (fun h => ⟨⟨h.1⟩, hf h⟩) ?_
    intro a b e
    apply Subtype.ext
    exact congrArg F128.val (congrArg Subtype.val e)
  refine h1.trans ?_
  rw [Nat.card_eq_fintype_card, Fintype.card_coe]
  refine (Multiset.toFinset_card_le _).trans ((card_roots' _).trans ?_)
  refine (natDegree_sub_le _ _).trans ?_
  rw [natDegree_C]
  have d1 := rp_degree xs.reverse
  have d2 := rp_degree ys.reverse
  have d3 := natDegree_sub_le (rp xs.reverse) (rp ys.reverse)
  simp only [List.length_reverse] at d1 d2
  omega

/-! ### The string that is hashed determines the data -/

theorem be64_inj {m n : Nat} (hm : m < 2 ^ 64) (hn : n < 2 ^ 64) (h : be64 m = be64 n) : m = n := by
  have key : ∀ k, k < 2 ^ 64 → k = ((be64 k).map BitVec.toNat).foldl (fun a b => a * 256 + b) 0 := by
    intro k hk
    simp only [be64, List.range, List.range.loop, List.map_cons, List.map_nil, List.foldl_cons, List.foldl_nil,
      BitVec.toNat_ofNat]
    omega
  rw [key m hm, key n hn, h]

theorem length_be64 (n : Nat) : (be64 n).length = 8 := by simp [be64]

theorem length_pad (l : List Byte) : (pad l).length = l.length + (16 - l.length % 16) % 16 := by simp [pad]

theorem pad_inj {a b : List Byte} (hl : a.length = b.length) (h : pad a = pad b) : a = b := by
  unfold pad at h
  exact (List.append_inj h hl).1

theorem hashInput_inj {a c a' c' : List Byte} (ha : 8 * a.length < 2 ^ 64) (hc : 8 * c.length < 2 ^ 64) (ha' : 8 * a'.length < 2 ^ 64)
    (hc' : 8 * c'.length < 2 ^ 64) (h : hashInput a c = hashInput a' c') : a = a' ∧ c = c' := by
  unfold hashInput at h
  obtain ⟨h1, h2⟩ := List.append_inj' h (by simp [length_be64])
  obtain ⟨h3, h4⟩ := List.append_inj' h1 (by simp [length_be64])
  have l1 : a.length = a'.length := by have := be64_inj ha ha' h4; omega
  have l2 : c.length = c'.length := by have := be64_inj hc hc' h2; omega
  obtain ⟨h5, h6⟩ := List.append_inj h3 (by rw [length_pad, length_pad, l1])
  exact ⟨pad_inj l1 h5, pad_inj l2 h6⟩

theorem blocks_join : ∀ (n : Nat) (l : List Byte), l.length = 16 * n → ((List.range n).flatMap fun i => ((l.drop (16 * i)).take 16)) = l
  | 0, l, h => by
    have : l = [] := List.length_eq_zero_iff.1 (by omega)
    simp [this]
  | n + 1, l, h => by
    rw [List.range_succ_eq_map, List.flatMap_cons, List.flatMap_map]
    have := blocks_join n (l.drop 16) (by simp; omega)
    simp only [List.drop_drop] at this
    simp only [Nat.mul_zero, List.drop_zero, Nat.succ_eq_add_one, Nat.mul_add, Nat.mul_one]
    have e : (fun i => List.take 16 (List.drop (16 * i + 16) l)) = fun i => List.take 16 (List.drop (16 + 16 * i) l) := by
      funext i; rw [Nat.add_comm]
    rw [e, this]
    exact List.take_append_drop 16 l

theorem blocks_bytes (l : List Byte) (h : l.length % 16 = 0) : (blocks l).flatMap bytesOf = l := by
  unfold blocks
  rw [List.flatMap_map]
  have hl : l.length = 16 * (l.length / 16) := by omega
  have := blocks_join (l.length / 16) l hl
  rw [← this] 
  conv_lhs => rw [this]
  apply List.flatMap_congr
  intro i hi
  have hi' := List.mem_range.1 hi
  exact bytesOf_blockOf _ (by simp; omega)

theorem blocks_inj {l l' : List Byte} (h : l.length % 16 = 0) (h' : l'.length % 16 = 0) (e : blocks l = blocks l') : l = l' := by
  rw [← blocks_bytes l h, ← blocks_bytes l' h', e]

theorem length_blocks (l : List Byte) : (blocks l).length = l.length / 16 := by simp [blocks]

/-- The last block hashed holds the lengths. -/
theorem blocks_last (a c : List Byte) : ∃ l, blocks (hashInput a c) = l ++ [blockOf (be64 (8 * a.length) ++ be64 (8 * c.length))] := by
  have hl : (pad a ++ pad c).length % 16 = 0 := by rw [List.length_append, length_pad, length_pad]; omega
  have hb : (be64 (8 * a.length) ++ be64 (8 * c.length)).length = 16 := by simp [length_be64]
  have e : hashInput a c = (pad a ++ pad c) ++ (be64 (8 * a.length) ++ be64 (8 * c.length)) := by
    unfold hashInput; rw [List.append_assoc]
  generalize be64 (8 * a.length) ++ be64 (8 * c.length) = t at hb e ⊢
  generalize pad a ++ pad c = p at hl e
  refine ⟨(List.range (p.length / 16)).map fun i => blockOf (((p ++ t).drop (16 * i)).take 16), ?_⟩
  rw [e, blocks]
  have h1 : (p ++ t).length / 16 = p.length / 16 + 1 := by rw [List.length_append]; omega
  rw [h1, List.range_succ, List.map_append, List.map_singleton]
  congr 2
  have h2 : 16 * (p.length / 16) = p.length := by omega
  rw [h2, List.drop_left, List.take_of_length_le (by omega)]

/-- Different data give different polynomials. -/
theorem rp_hashInput {a c a' c' : List Byte} (ha : 8 * a.length < 2 ^ 64) (hc : 8 * c.length < 2 ^ 64) (ha' : 8 * a'.length < 2 ^ 64)
    (hc' : 8 * c'.length < 2 ^ 64) (hne : ¬(a = a' ∧ c = c')) :
    rp (blocks (hashInput a c)).reverse ≠ rp (blocks (hashInput a' c')).reverse := by
  intro e
  obtain ⟨l, h1⟩ := blocks_last a c
  obtain ⟨l', h2⟩ := blocks_last a' c'
  have hlast : be64 (8 * a.length) ++ be64 (8 * c.length) = be64 (8 * a'.length) ++ be64 (8 * c'.length) := by
    have := e
    rw [h1, h2, List.reverse_append, List.reverse_append, List.reverse_singleton, List.reverse_singleton, List.singleton_append, List.singleton_append] at this
    have := congrArg (fun p => (p.coeff 1).val) this
    simp only [rp_one] at this
    have := congrArg bytesOf this
    rwa [bytesOf_blockOf _ (by simp [length_be64]), bytesOf_blockOf _ (by simp [length_be64])] at this
  obtain ⟨h4, h5⟩ := List.append_inj hlast (by simp [length_be64])
  have l1 : a.length = a'.length := by have := be64_inj ha ha' h4; omega
  have l2 : c.length = c'.length := by have := be64_inj hc hc' h5; omega
  have hlen : (hashInput a c).length = (hashInput a' c').length := by
    simp only [hashInput, List.length_append, length_pad, length_be64, l1, l2]
  have := rp_inj (by simp [length_blocks, hlen]) e
  have := List.reverse_injective this
  exact hne (hashInput_inj ha hc ha' hc' (blocks_inj (length_hashInput _ _) (length_hashInput _ _) this))

/-- The number of blocks hashed. -/
def count (a c : List Byte) : Nat := (a.length + 15) / 16 + (c.length + 15) / 16 + 1

theorem count_eq (a c : List Byte) : (blocks (hashInput a c)).length = count a c := by
  rw [length_blocks, count]
  simp only [hashInput, List.length_append, length_pad, length_be64]
  omega

theorem hash_bound {a c a' c' : List Byte} (ha : 8 * a.length < 2 ^ 64) (hc : 8 * c.length < 2 ^ 64) (ha' : 8 * a'.length < 2 ^ 64)
    (hc' : 8 * c'.length < 2 ^ 64) (hne : ¬(a = a' ∧ c = c')) (δ : Block) :
    Nat.card { h : Block // gcmGhash h (blocks (hashInput a c)) ^^^ gcmGhash h (blocks (hashInput a' c')) = δ }
      ≤ max (count a c) (count a' c') := by
  have := ghash_bound (rp_hashInput ha hc ha' hc' hne) δ
  rwa [count_eq, count_eq] at this

end Verif.Lemmas.GHash
