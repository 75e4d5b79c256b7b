import Verif.Model.OLE
import Verif.Lemmas.GF
import Verif.Lemmas.GFRing
import Mathlib.Data.Int.ModEq
import Mathlib.Tactic.Ring
import Mathlib.Tactic.LinearCombination
import Mathlib.Algebra.BigOperators.Intervals

/-! C21, C22: oblivious linear evaluation. -/

namespace Verif.Props
open Verif.Model Verif.Model.OLE Verif.Lemmas

/-- Sum of a function over a list of indices. -/
def sumOver (f : Nat → Int) (l : List Nat) : Int := (l.map f).sum

theorem ole_loops (h : Block → Int) (q : Int) (delta : Block) (K : Nat → Block) (x : Int) (c : Nat → Bool)
    (l : List (Nat × Nat)) : ∀ (o1 o2 : Int) (rest : List Int),
    ∃ o2', recvLoop h q (l.map fun p => (p.1, c p.1, K p.2 ^^^ (if c p.1 then delta else 0)))
        ((sendLoop h q delta x (l.map fun p => (p.1, K p.2)) o1).2 ++ rest) o2 = .ok (o2', rest)
      ∧ (sendLoop h q delta x (l.map fun p => (p.1, K p.2)) o1).1 + o2'
        ≡ o1 + o2 + x * sumOver (fun j => if c j then 2 ^ j else 0) (l.map (·.1)) [ZMOD q] := by
  induction l with
  | nil => intro o1 o2 rest; exact ⟨o2, rfl, by simp [sendLoop, sumOver]⟩
  | cons p l ih =>
    intro o1 o2 rest
    obtain ⟨j, k⟩ := p
    simp only [List.map_cons, sendLoop, List.cons_append, recvLoop]
    obtain ⟨o2', e, m⟩ := ih ((o1 + exp q j * (q - h (K k)) % q) % q)
      ((o2 + exp q j * (if c j then (h (K k) + h (K k ^^^ delta) + x) % q - h (K k ^^^ (if c j then delta else 0))
        else h (K k ^^^ (if c j then delta else 0))) % q) % q) rest
    refine ⟨o2', e, m.trans ?_⟩
    have he : exp q j ≡ 2 ^ j [ZMOD q] := Int.mod_modEq _ _
    have hq : q ≡ 0 [ZMOD q] := by simp [Int.ModEq]
    have h1 : (o1 + exp q j * (q - h (K k)) % q) % q ≡ o1 + 2 ^ j * (0 - h (K k)) [ZMOD q] :=
      (Int.mod_modEq _ _).trans (((Int.ModEq.refl _).add ((Int.mod_modEq _ _).trans (he.mul (hq.sub_right _)))))
    have h2 : (o2 + exp q j * (if c j then (h (K k) + h (K k ^^^ delta) + x) % q - h (K k ^^^ (if c j then delta else 0))
        else h (K k ^^^ (if c j then delta else 0))) % q) % q
        ≡ o2 + 2 ^ j * (h (K k) + if c j then x else 0) [ZMOD q] := by
      refine (Int.mod_modEq _ _).trans ((Int.ModEq.refl _).add ((Int.mod_modEq _ _).trans (he.mul ?_)))
      cases c j
      · simp
      · simp only [if_true]
        refine ((Int.mod_modEq _ _).sub_right _).trans ?_
        have : h (K k) + h (K k ^^^ delta) + x - h (K k ^^^ delta) = h (K k) + x := by ring
        rw [this]
    refine ((h1.add h2).add_right _).trans ?_
    have : o1 + 2 ^ j * (0 - h (K k)) + (o2 + 2 ^ j * (h (K k) + if c j then x else 0))
        + x * sumOver (fun j => if c j then 2 ^ j else 0) (l.map (·.1))
        = o1 + o2 + x * sumOver (fun j => if c j then 2 ^ j else 0) (j :: l.map (·.1)) := by
      simp only [sumOver, List.map_cons, List.sum_cons]
      cases c j <;> simp <;> ring
    rw [this]

theorem bits_sum (n : Nat) : ∀ (y : Nat), y < 2 ^ n →
    sumOver (fun j => if y.testBit j then 2 ^ j else 0) (List.range n) = y := by
  induction n with
  | zero => intro y h; simp at h; subst h; rfl
  | succ n ih =>
    intro y h
    have hy : y % 2 ^ n < 2 ^ n := Nat.mod_lt _ (Nat.two_pow_pos n)
    have := ih (y % 2 ^ n) hy
    have hl : sumOver (fun j => if (y % 2 ^ n).testBit j then (2 : Int) ^ j else 0) (List.range n)
        = sumOver (fun j => if y.testBit j then 2 ^ j else 0) (List.range n) := by
      unfold sumOver
      congr 1
      apply List.map_congr_left
      intro j hj
      have : j < n := by simpa using hj
      simp [Nat.testBit_mod_two_pow, this]
    rw [hl] at this
    rw [List.range_succ]
    unfold sumOver at this ⊢
    rw [List.map_append, List.sum_append, this]
    simp only [List.map_cons, List.map_nil, List.sum_cons, List.sum_nil, add_zero]
    have hb : y.testBit n = decide (2 ^ n ≤ y) := by
      rw [Nat.testBit_eq_decide_div_mod_eq]
      have h2 : y / 2 ^ n < 2 := by
        rw [Nat.div_lt_iff_lt_mul (Nat.two_pow_pos n)]; rw [pow_succ] at h; omega
      by_cases hle : 2 ^ n ≤ y
      · have : 1 ≤ y / 2 ^ n := (Nat.le_div_iff_mul_le (Nat.two_pow_pos n)).mpr (by omega)
        have : y / 2 ^ n = 1 := by omega
        simp [this, hle]
      · have : y / 2 ^ n = 0 := Nat.div_eq_of_lt (by omega)
        simp [this, hle]
    rw [hb]
    by_cases hle : 2 ^ n ≤ y
    · simp only [hle, decide_true, if_true]
      have : y % 2 ^ n = y - 2 ^ n := by
        rw [Nat.mod_eq_sub_mod hle, Nat.mod_eq_of_lt]
        rw [pow_succ] at h; omega
      rw [this]
      push_cast [hle]
      ring
    · simp only [hle, decide_false, Bool.false_eq_true, if_false, add_zero]
      rw [Nat.mod_eq_of_lt (by omega)]

theorem ole_elements (h : Block → Int) (q : Int) (n : Nat) (delta : Block) (K : Nat → Block) (ins : List Int) :
    ∀ (inr : List Nat) (i : Nat), inr.length = ins.length → (∀ y ∈ inr, y < 2 ^ n) →
    ∃ o, recv h q n (fun k c => K k ^^^ (if c then delta else 0)) i (inr.map Int.ofNat) (send h q n delta K i ins).2 = .ok (o, [])
      ∧ o.length = ins.length ∧ (send h q n delta K i ins).1.length = ins.length
      ∧ ∀ (k : Nat) (x a b : Int) (y : Nat), ins[k]? = some x → inr[k]? = some y → (send h q n delta K i ins).1[k]? = some a →
        o[k]? = some b → a + b ≡ x * y [ZMOD q] := by
  induction ins with
  | nil =>
    intro inr i hl _
    have : inr = [] := List.length_eq_zero_iff.mp hl
    subst this
    exact ⟨[], rfl, rfl, rfl, by simp⟩
  | cons x ins ih =>
    intro inr i hl hb
    cases inr with
    | nil => simp at hl
    | cons y inr =>
      obtain ⟨o, e, l1, l2, r⟩ := ih inr (i + 1) (by simpa using hl) (fun z hz => hb z (by simp [hz]))
      obtain ⟨o2, e2, m2⟩ := ole_loops h q delta K x (bitsOf (Int.ofNat y)) (slice n i) 0 0 (send h q n delta K (i + 1) ins).2
      refine ⟨o2 :: o, ?_, by simp [l1], by simp [send, l2], ?_⟩
      · simp only [List.map_cons, recv, send, e2, e, bind, Except.bind]
      · intro k x' a b y' h1 h2 h3 h4
        cases k with
        | zero =>
          simp only [List.getElem?_cons_zero, Option.some.injEq, send] at h1 h2 h3 h4
          subst h1 h2 h3 h4
          refine m2.trans ?_
          have : sumOver (fun j => if bitsOf (Int.ofNat y) j then (2 : Int) ^ j else 0) ((slice n i).map (·.1)) = y := by
            have hs : (slice n i).map (·.1) = List.range n := by simp [slice, Function.comp_def]
            rw [hs]
            exact bits_sum n y (hb y (by simp))
          rw [this]; simp
        | succ k =>
          simp only [List.getElem?_cons_succ, send] at h1 h2 h3 h4
          exact r k x' a b y' h1 h2 h3 h4

/-- **C21.**  For every modulus, number of bits, hash function, correlated OT, offset and all input vectors of the same
length, where the receiver's inputs have at most `n` bits: the protocol ends with all messages consumed and the outputs
add modulo `q` to the products, element by element. -/
theorem C21_ole (ccrh : Block → Block) (q : Int) (n : Nat) (delta : Block) (K : Nat → Block) (ins : List Int)
    (inr : List Nat) (hl : inr.length = ins.length) (hb : ∀ y ∈ inr, y < 2 ^ n) :
    ∃ os or', compute ccrh q n delta K ins (inr.map Int.ofNat) = .ok (os, or', [])
      ∧ os.length = ins.length ∧ or'.length = ins.length
      ∧ ∀ (k : Nat) (x a b : Int) (y : Nat), ins[k]? = some x → inr[k]? = some y → os[k]? = some a → or'[k]? = some b →
        (a + b) % q = (x * y) % q := by
  obtain ⟨o, e, l1, l2, r⟩ := ole_elements (hashBn ccrh q) q n delta K ins inr 0 hl hb
  refine ⟨_, o, ?_, l2, l1, r⟩
  simp only [compute, e, bind, Except.bind]

/-- The bound on the receiver's input is needed: higher bits are ignored. -/
theorem C21_bound_needed : ∃ (ccrh : Block → Block) (q : Int) (n : Nat) (os or' : List Int),
    compute ccrh q n 0 (fun _ => 0) [3] [4] = .ok (os, or', []) ∧ (os.sum + or'.sum) % q ≠ (3 * 4) % q := by
  refine ⟨fun _ => 0, 7, 2, [0], [0], by decide +kernel, by decide⟩

/-- An execution with non-trivial hashes. -/
example : ∃ os or', compute (fun b => b * b + 12345#128) 1009 10 77 (fun i => BitVec.ofNat 128 (i * i + 5)) [100, 7] [600, 1008]
    = .ok (os, or', []) ∧ (os.map (· % 1009)) ≠ [0, 0]
    ∧ List.zipWith (fun a b => (a + b) % 1009) os or' = [(100 * 600) % 1009, (7 * 1008) % 1009] := by
  refine ⟨_, _, rfl, by decide +kernel, by decide +kernel⟩

/-- **C21 (no correlation is used twice).**  The output and the messages of element `k` depend only on the correlations `k n` to
`k n + n - 1`: whatever the others are, they are the same. -/
theorem C21_fresh (h : Block → Int) (q : Int) (n : Nat) (delta : Block) (K K' : Nat → Block) (ins : List Int) (k : Nat)
    (hK : ∀ p, k * n ≤ p → p < k * n + n → K p = K' p) :
    (send h q n delta K 0 ins).1[k]? = (send h q n delta K' 0 ins).1[k]?
      ∧ ((send h q n delta K 0 ins).2.drop (k * n)).take n = ((send h q n delta K' 0 ins).2.drop (k * n)).take n := by
  have hlen : ∀ (x : Int) (l : List (Nat × Block)) (o : Int), (sendLoop h q delta x l o).2.length = l.length := by
    intro x l
    induction l with
    | nil => intro o; rfl
    | cons p l ih => intro o; simp [sendLoop, ih]
  have key : ∀ (ins : List Int) (i k : Nat), (∀ p, (i + k) * n ≤ p → p < (i + k) * n + n → K p = K' p) →
      (send h q n delta K i ins).1[k]? = (send h q n delta K' i ins).1[k]?
      ∧ ((send h q n delta K i ins).2.drop (k * n)).take n = ((send h q n delta K' i ins).2.drop (k * n)).take n := by
    intro ins
    induction ins with
    | nil => intro i k _; exact ⟨rfl, rfl⟩
    | cons x ins ih =>
      intro i k hk
      have hl : ∀ K : Nat → Block, (sendLoop h q delta x ((slice n i).map fun p => (p.1, K p.2)) 0).2.length = n := by
        intro K; rw [hlen]; simp [slice]
      cases k with
      | zero =>
        have hs : ((slice n i).map fun p => (p.1, K p.2)) = (slice n i).map fun p => (p.1, K' p.2) := by
          apply List.map_congr_left
          intro p hp
          simp only [slice, List.mem_map, List.mem_range] at hp
          obtain ⟨j, hj, rfl⟩ := hp
          simp only
          rw [hk (i * n + j) (by simp) (by simp; omega)]
        simp only [send, List.getElem?_cons_zero, hs, Nat.zero_mul, List.drop_zero]
        refine ⟨trivial, ?_⟩
        rw [List.take_left' (hl K'), List.take_left' (hl K')]
      | succ k =>
        have hd : ∀ (a b : List Int), a.length = n → (a ++ b).drop ((k + 1) * n) = b.drop (k * n) := by
          intro a b ha
          rw [Nat.succ_mul, Nat.add_comm, ← List.drop_drop, List.drop_left' ha]
        simp only [send, List.getElem?_cons_succ, hd _ _ (hl K), hd _ _ (hl K')]
        exact ih (i + 1) k (by rw [show i + 1 + k = i + (k + 1) by omega]; exact hk)
  exact key ins 0 k (by simpa using hK)

example : ∀ p, 1 * 3 ≤ p → p < 1 * 3 + 3 → (fun p => if p < 3 then 5#128 else 7#128) p = (fun _ => 7#128) p := by
  intro p h _
  simp only
  rw [if_neg (by omega)]

/-! ### GF(2^128) -/

theorem foldl_xor_acc (l : List (Block × Block)) (r : Block) :
    l.foldl (fun r p => r ^^^ mulBlock p.1 p.2) r = r ^^^ l.foldl (fun r p => r ^^^ mulBlock p.1 p.2) 0 := by
  induction l generalizing r with
  | nil => simp
  | cons p l ih =>
    simp only [List.foldl_cons]
    rw [ih, ih (0 ^^^ mulBlock p.1 p.2)]
    simp [BitVec.xor_assoc]

/-- Accumulation over the first `n` unit vectors. -/
def accum (f : Nat → Block) : Nat → Block
  | 0 => 0
  | n + 1 => accum f n ^^^ f n

theorem innerProd_eq (a : Nat → Block) :
    innerProd ((List.range 128).map a) = accum (fun j => mulBlock (a j) (base j)) 128 := by
  have key : ∀ n, (((List.range n).map a).zip ((List.range n).map base)).foldl (fun r p => r ^^^ mulBlock p.1 p.2) 0
      = accum (fun j => mulBlock (a j) (base j)) n := by
    intro n
    induction n with
    | zero => rfl
    | succ n ih =>
      rw [List.range_succ, List.map_append, List.map_append, List.zip_append (by simp), List.foldl_append, ih]
      rfl
  exact key 128

theorem accum_xor (f g : Nat → Block) (n : Nat) : accum f n ^^^ accum g n = accum (fun j => f j ^^^ g j) n := by
  induction n with
  | zero => simp [accum]
  | succ n ih =>
    simp only [accum, ← ih]
    ac_rfl

theorem accum_congr (f g : Nat → Block) (n : Nat) (h : ∀ j < n, f j = g j) : accum f n = accum g n := by
  induction n with
  | zero => rfl
  | succ n ih => simp only [accum, h n (by omega), ih (fun j hj => h j (by omega))]

theorem accum_bits (y : Block) (n : Nat) (hn : n ≤ 128) (i : Nat) :
    (accum (fun j => if y.getLsbD j then base j else 0) n).getLsbD i = (decide (i < n) && y.getLsbD i) := by
  induction n with
  | zero => simp [accum]
  | succ n ih =>
    rw [accum, BitVec.getLsbD_xor, ih (by omega)]
    by_cases h : i = n
    · subst h
      cases hy : y.getLsbD i <;> simp [base, BitVec.getLsbD_twoPow]
      omega
    · have : (if y.getLsbD n then base n else 0).getLsbD i = false := by
        cases y.getLsbD n <;> simp [base, BitVec.getLsbD_twoPow]; omega
      rw [this]
      by_cases h2 : i < n
      · simp [h2, show i < n + 1 by omega]
      · simp [h2, show ¬ i < n + 1 by omega]

theorem accum_lin (x : Block) (f : Nat → Block) (n : Nat) : accum (fun j => mulBlock x (f j)) n = mulBlock x (accum f n) := by
  induction n with
  | zero => exact ((mulBlock_lin_right x).zero).symm
  | succ n ih => simp only [accum]; rw [ih, mulBlock_lin_right x]

/-- One element: the two outputs xor to the product. -/
theorem f2k_element (raw0 raw1 : Nat → Block) (x y : Block) (i : Nat) :
    (f2kSend raw0 raw1 x i).1 ^^^ f2kRecv (fun k c => if c then raw1 k else raw0 k) y i (f2kSend raw0 raw1 x i).2
      = mulBlock x y := by
  unfold f2kSend f2kRecv
  rw [innerProd_eq, innerProd_eq, accum_xor]
  have : accum (fun j => mulBlock x (if y.getLsbD j then base j else 0)) 128 = mulBlock x y := by
    rw [accum_lin]
    congr 1
    apply BitVec.eq_of_getLsbD_eq
    intro k hk
    rw [accum_bits y 128 (by omega)]
    simp [hk]
  rw [← this]
  apply accum_congr
  intro j hj
  rw [← mulBlock_lin_left (base j)]
  have hg : (((List.range 128).map fun j => raw0 (i * 128 + j) ^^^ raw1 (i * 128 + j) ^^^ x).getD j 0)
      = raw0 (i * 128 + j) ^^^ raw1 (i * 128 + j) ^^^ x := by
    rw [List.getD_eq_getElem?_getD, List.getElem?_map, List.getElem?_range hj]; rfl
  simp only [hg]
  cases y.getLsbD j
  · simp only [Bool.false_eq_true, if_false, BitVec.xor_self]
    rw [show (0 : Block) = 0#128 from rfl, (mulBlock_lin_right x).zero]
    exact (mulBlock_lin_left (base j)).zero
  · simp only [if_true]
    congr 1
    generalize raw0 (i * 128 + j) = a
    generalize raw1 (i * 128 + j) = b
    ext k hk
    simp
    cases a[k] <;> cases b[k] <;> cases x[k] <;> rfl

/-- **C22.**  For every length, all random OTs and all inputs: the protocol ends with all messages consumed and the
outputs xor to the products in GF(2^128), element by element. -/
theorem C22_ole_f2k (raw0 raw1 : Nat → Block) (ins inr : List Block) (hl : inr.length = ins.length) :
    ∃ os or', f2kCompute raw0 raw1 ins inr = .ok (os, or', [])
      ∧ os.length = ins.length ∧ or'.length = ins.length
      ∧ List.zipWith (· ^^^ ·) os or' = List.zipWith Spec.gcmMul ins inr := by
  have key : ∀ (ins inr : List Block) (i : Nat), inr.length = ins.length →
      ∃ o, f2kRecvAll (fun k c => if c then raw1 k else raw0 k) i inr (f2kSendAll raw0 raw1 i ins).2 = .ok (o, [])
        ∧ (f2kSendAll raw0 raw1 i ins).1.length = ins.length ∧ o.length = ins.length
        ∧ List.zipWith (· ^^^ ·) (f2kSendAll raw0 raw1 i ins).1 o = List.zipWith Spec.gcmMul ins inr := by
    intro ins
    induction ins with
    | nil =>
      intro inr i h
      have : inr = [] := List.length_eq_zero_iff.mp h
      subst this
      exact ⟨[], rfl, rfl, rfl, rfl⟩
    | cons x ins ih =>
      intro inr i h
      cases inr with
      | nil => simp at h
      | cons y inr =>
        obtain ⟨o, e, l1, l2, r⟩ := ih inr (i + 1) (by simpa using h)
        have hlen : (f2kSend raw0 raw1 x i).2.length = 128 := by simp [f2kSend]
        refine ⟨f2kRecv (fun k c => if c then raw1 k else raw0 k) y i (f2kSend raw0 raw1 x i).2 :: o, ?_, by simp [f2kSendAll, l1],
          by simp [l2], ?_⟩
        · have hd : ((f2kSend raw0 raw1 x i).2 ++ (f2kSendAll raw0 raw1 (i + 1) ins).2).drop 128
              = (f2kSendAll raw0 raw1 (i + 1) ins).2 := by rw [← hlen, List.drop_left]
          have ht : ((f2kSend raw0 raw1 x i).2 ++ (f2kSendAll raw0 raw1 (i + 1) ins).2).take 128
              = (f2kSend raw0 raw1 x i).2 := by rw [← hlen, List.take_left]
          have hn : ¬ ((f2kSend raw0 raw1 x i).2 ++ (f2kSendAll raw0 raw1 (i + 1) ins).2).length < 128 := by
            rw [List.length_append, hlen]; omega
          simp only [f2kSendAll, f2kRecvAll, hn, if_false, hd, ht, e, bind, Except.bind]
        · simp only [f2kSendAll, List.zipWith_cons_cons, r]
          rw [f2k_element, mulBlock_eq_gcmMul]
  obtain ⟨o, e, l1, l2, r⟩ := key ins inr 0 hl
  exact ⟨_, o, by simp only [f2kCompute, e, bind, Except.bind], l1, l2, r⟩

/-- **C22 (no correlation is used twice).**  The output and the messages of element `k` depend only on the random OTs `128 k` to
`128 k + 127`. -/
theorem C22_fresh (raw0 raw1 raw0' raw1' : Nat → Block) (ins : List Block) (k : Nat)
    (hr : ∀ p, p / 128 = k → raw0 p = raw0' p ∧ raw1 p = raw1' p) :
    (f2kSendAll raw0 raw1 0 ins).1[k]? = (f2kSendAll raw0' raw1' 0 ins).1[k]?
      ∧ ((f2kSendAll raw0 raw1 0 ins).2.drop (k * 128)).take 128 = ((f2kSendAll raw0' raw1' 0 ins).2.drop (k * 128)).take 128 := by
  have key : ∀ (ins : List Block) (i k : Nat), (∀ p, p / 128 = i + k → raw0 p = raw0' p ∧ raw1 p = raw1' p) →
      (f2kSendAll raw0 raw1 i ins).1[k]? = (f2kSendAll raw0' raw1' i ins).1[k]?
      ∧ ((f2kSendAll raw0 raw1 i ins).2.drop (k * 128)).take 128 = ((f2kSendAll raw0' raw1' i ins).2.drop (k * 128)).take 128 := by
    intro ins
    induction ins with
    | nil => intro i k _; exact ⟨rfl, rfl⟩
    | cons x ins ih =>
      intro i k hk
      have hl : ∀ r0 r1 : Nat → Block, (f2kSend r0 r1 x i).2.length = 128 := by intro r0 r1; simp [f2kSend]
      cases k with
      | zero =>
        have h0 : ((List.range 128).map fun j => raw0 (i * 128 + j)) = (List.range 128).map fun j => raw0' (i * 128 + j) :=
          List.map_congr_left fun j hj => (hk (i * 128 + j) (by have := List.mem_range.1 hj; omega)).1
        have h1 : ((List.range 128).map fun j => raw0 (i * 128 + j) ^^^ raw1 (i * 128 + j) ^^^ x)
            = (List.range 128).map fun j => raw0' (i * 128 + j) ^^^ raw1' (i * 128 + j) ^^^ x :=
          List.map_congr_left fun j hj => by
            have := hk (i * 128 + j) (by have := List.mem_range.1 hj; omega)
            rw [this.1, this.2]
        have he : f2kSend raw0 raw1 x i = f2kSend raw0' raw1' x i := by rw [f2kSend, f2kSend, h0, h1]
        simp only [f2kSendAll, List.getElem?_cons_zero, he, Nat.zero_mul, List.drop_zero]
        refine ⟨trivial, ?_⟩
        rw [List.take_left' (hl _ _), List.take_left' (hl _ _)]
      | succ k =>
        have hd : ∀ (a b : List Block), a.length = 128 → (a ++ b).drop ((k + 1) * 128) = b.drop (k * 128) := by
          intro a b ha
          rw [Nat.succ_mul, Nat.add_comm, ← List.drop_drop, List.drop_left' ha]
        simp only [f2kSendAll, List.getElem?_cons_succ, hd _ _ (hl raw0 raw1), hd _ _ (hl raw0' raw1')]
        exact ih (i + 1) k (by rw [show i + 1 + k = i + (k + 1) by omega]; exact hk)
  exact key ins 0 k (by simpa using hr)

example : ∀ p, p / 128 = 1 → (fun p => if p < 128 then 5#128 else 7#128) p = (fun _ => 7#128) p ∧ (0#128 = 0#128) := by
  intro p h
  simp only
  rw [if_neg (by omega)]
  exact ⟨rfl, trivial⟩

example : ([5#128, 7#128] : List Block).length = [1#128, 9#128].length := rfl

end Verif.Props
