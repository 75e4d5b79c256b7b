/-!
Xor-linear maps between bit vectors, xor sums, and the basis extension principle: two xor-linear maps that
agree on all unit vectors are equal.
-/

namespace Verif.Lemmas

/-- Xor-linear map. -/
def Lin {n m : Nat} (f : BitVec n → BitVec m) : Prop := ∀ a b, f (a ^^^ b) = f a ^^^ f b

theorem Lin.zero {n m : Nat} {f : BitVec n → BitVec m} (h : Lin f) : f 0#n = 0#m := by
  have := h 0#n 0#n
  simp only [BitVec.xor_self] at this
  exact this

theorem Lin.comp {n m k : Nat} {f : BitVec m → BitVec k} {g : BitVec n → BitVec m}
    (hf : Lin f) (hg : Lin g) : Lin (fun x => f (g x)) := by
  intro a b; simp only [hg a b]; exact hf _ _

theorem Lin.xor {n m : Nat} {f g : BitVec n → BitVec m}
    (hf : Lin f) (hg : Lin g) : Lin (fun x => f x ^^^ g x) := by
  intro a b; simp only [hg a b, hf a b]; ac_rfl

theorem lin_id {n : Nat} : Lin (fun x : BitVec n => x) := fun _ _ => rfl
theorem lin_zero {n m : Nat} : Lin (fun _ : BitVec n => 0#m) := by
  intro a b; simp

theorem lin_shiftLeft {n : Nat} (k : Nat) : Lin (fun x : BitVec n => x <<< k) := by
  intro a b; simp only [BitVec.shiftLeft_xor_distrib]
theorem lin_ushiftRight {n : Nat} (k : Nat) : Lin (fun x : BitVec n => x >>> k) := by
  intro a b; simp only [BitVec.ushiftRight_xor_distrib]
theorem lin_setWidth {n m : Nat} : Lin (fun x : BitVec n => x.setWidth m) := by
  intro a b; simp only [BitVec.setWidth_xor]

/-- Conditional on a bit of the argument of a constant vector is linear. -/
theorem lin_bit {n m : Nat} (i : Nat) (c : BitVec m) :
    Lin (fun x : BitVec n => if x.getLsbD i then c else 0#m) := by
  intro a b
  simp only [BitVec.getLsbD_xor]
  cases a.getLsbD i <;> cases b.getLsbD i <;> simp

theorem lin_ite {n m : Nat} (b : Bool) {f : BitVec n → BitVec m} (h : Lin f) :
    Lin (fun x => if b then f x else 0#m) := by
  cases b
  · intro a b; simp
  · simpa using h

/-- The low `k` bits of `x`. -/
def low {n : Nat} (x : BitVec n) (k : Nat) : BitVec n := (x.setWidth k).setWidth n

theorem getLsbD_low {n : Nat} (x : BitVec n) (k i : Nat) :
    (low x k).getLsbD i = (decide (i < k) && x.getLsbD i) := by
  by_cases hi : i < n
  · simp [low, hi]
  · simp [low, BitVec.getLsbD_of_ge x i (by omega)]

theorem low_zero {n : Nat} (x : BitVec n) : low x 0 = 0#n := by
  apply BitVec.eq_of_getLsbD_eq; intro i _; simp [getLsbD_low]

theorem low_full {n : Nat} (x : BitVec n) : low x n = x := by
  apply BitVec.eq_of_getLsbD_eq; intro i h; rw [getLsbD_low]; simp [h]

theorem low_succ {n : Nat} (x : BitVec n) (k : Nat) :
    low x (k+1) = low x k ^^^ (if x.getLsbD k then BitVec.twoPow n k else 0#n) := by
  apply BitVec.eq_of_getLsbD_eq; intro i h
  by_cases hk : x.getLsbD k
  · simp only [getLsbD_low, BitVec.getLsbD_xor, hk, if_true, BitVec.getLsbD_twoPow]
    rcases Nat.lt_trichotomy i k with h1 | h1 | h1
    · have h2 : i < k + 1 := by omega
      have h3 : ¬ (k = i) := by omega
      simp [h1, h2, h3]
    · subst h1; simp [h, hk]
    · have h2 : ¬ (i < k + 1) := by omega
      have h3 : ¬ (k = i) := by omega
      have h4 : ¬ (i < k) := by omega
      simp [h2, h3, h4]
  · simp only [getLsbD_low, BitVec.getLsbD_xor, hk]
    by_cases h1 : i = k
    · subst h1; simp [hk]
    · have h2 : (i < k + 1) = (i < k) := by apply propext; omega
      simp [h2]

/-- Basis extension principle. -/
theorem lin_ext {n m : Nat} {f g : BitVec n → BitVec m} (hf : Lin f) (hg : Lin g)
    (h : ∀ i, i < n → f (BitVec.twoPow n i) = g (BitVec.twoPow n i)) (x : BitVec n) : f x = g x := by
  have key : ∀ k, k ≤ n → f (low x k) = g (low x k) := by
    intro k
    induction k with
    | zero => intro _; rw [low_zero, hf.zero, hg.zero]
    | succ k ih =>
      intro hk
      rw [low_succ, hf, hg, ih (by omega)]
      congr 1
      cases x.getLsbD k
      · simp [hf.zero, hg.zero]
      · simpa using h k (by omega)
  have := key n (Nat.le_refl n)
  rwa [low_full] at this

/-- Bilinear extension principle. -/
theorem bilin_ext {n m k : Nat} {f g : BitVec n → BitVec m → BitVec k}
    (hf1 : ∀ b, Lin (fun a => f a b)) (hf2 : ∀ a, Lin (f a))
    (hg1 : ∀ b, Lin (fun a => g a b)) (hg2 : ∀ a, Lin (g a))
    (h : ∀ i j, i < n → j < m →
      f (BitVec.twoPow n i) (BitVec.twoPow m j) = g (BitVec.twoPow n i) (BitVec.twoPow m j))
    (a : BitVec n) (b : BitVec m) : f a b = g a b := by
  refine lin_ext (f := fun a => f a b) (g := fun a => g a b) (hf1 b) (hg1 b) ?_ a
  intro i hi
  exact lin_ext (hf2 _) (hg2 _) (fun j hj => h i j hi hj) b

/-- Xor of `f i` over a list. -/
def xorSum {m : Nat} (l : List Nat) (f : Nat → BitVec m) : BitVec m :=
  l.foldr (fun i acc => f i ^^^ acc) 0#m

@[simp] theorem xorSum_nil {m : Nat} (f : Nat → BitVec m) : xorSum [] f = 0#m := rfl
@[simp] theorem xorSum_cons {m : Nat} (i : Nat) (l : List Nat) (f : Nat → BitVec m) :
    xorSum (i :: l) f = f i ^^^ xorSum l f := rfl

theorem xorSum_xor {m : Nat} (l : List Nat) (f g : Nat → BitVec m) :
    xorSum l (fun i => f i ^^^ g i) = xorSum l f ^^^ xorSum l g := by
  induction l with
  | nil => simp
  | cons i l ih => simp only [xorSum_cons, ih]; ac_rfl

theorem xorSum_congr {m : Nat} (l : List Nat) (f g : Nat → BitVec m)
    (h : ∀ i ∈ l, f i = g i) : xorSum l f = xorSum l g := by
  induction l with
  | nil => rfl
  | cons i l ih =>
    simp only [xorSum_cons]
    rw [h i (by simp), ih (fun j hj => h j (by simp [hj]))]

theorem xorSum_zero {m : Nat} (l : List Nat) (f : Nat → BitVec m)
    (h : ∀ i ∈ l, f i = 0#m) : xorSum l f = 0#m := by
  induction l with
  | nil => rfl
  | cons i l ih =>
    simp only [xorSum_cons]
    rw [h i (by simp), ih (fun j hj => h j (by simp [hj]))]; simp

theorem xorSum_append {m : Nat} (l l' : List Nat) (f : Nat → BitVec m) :
    xorSum (l ++ l') f = xorSum l f ^^^ xorSum l' f := by
  induction l with
  | nil => simp
  | cons i l ih => simp only [List.cons_append, xorSum_cons, ih]; ac_rfl

theorem xorSum_range_single {m : Nat} (n j : Nat) (hj : j < n) (f : Nat → BitVec m)
    (h : ∀ i, i < n → i ≠ j → f i = 0#m) : xorSum (List.range n) f = f j := by
  induction n with
  | zero => omega
  | succ n ih =>
    rw [List.range_succ, xorSum_append]
    simp only [xorSum_cons, xorSum_nil, BitVec.xor_zero]
    by_cases hn : j = n
    · subst hn
      rw [xorSum_zero]
      · simp
      · intro i hi
        have := List.mem_range.1 hi
        exact h i (by omega) (by omega)
    · rw [ih (by omega) (fun i hi => h i (by omega)), h n (by omega) (by omega)]; simp

theorem Lin.xorSum {n m : Nat} {f : BitVec n → BitVec m} (hf : Lin f) (l : List Nat)
    (g : Nat → BitVec n) : f (xorSum l g) = Verif.Lemmas.xorSum l (fun i => f (g i)) := by
  induction l with
  | nil => simpa using hf.zero
  | cons i l ih => rw [xorSum_cons, xorSum_cons, hf, ih]

theorem lin_xorSum {n m : Nat} (l : List Nat) (f : Nat → BitVec n → BitVec m)
    (h : ∀ i, Lin (f i)) : Lin (fun x => xorSum l (fun i => f i x)) := by
  intro a b
  simp only [h _ a b, xorSum_xor]

/-- Left fold with conditional xor as an xor sum. -/
theorem foldl_cond_xor {m : Nat} (l : List Nat) (p : Nat → Bool) (g : Nat → BitVec m) (z : BitVec m) :
    l.foldl (fun acc i => if p i then acc ^^^ g i else acc) z
      = z ^^^ xorSum l (fun i => if p i then g i else 0#m) := by
  induction l generalizing z with
  | nil => simp
  | cons i l ih =>
    simp only [List.foldl_cons, xorSum_cons, ih]
    cases p i
    · simp
    · simp; ac_rfl

/-- Expansion of a vector in unit vectors. -/
theorem expand {n : Nat} (x : BitVec n) :
    x = xorSum (List.range n) (fun i => if x.getLsbD i then BitVec.twoPow n i else 0#n) := by
  have key : ∀ k, low x k
      = xorSum (List.range k) (fun i => if x.getLsbD i then BitVec.twoPow n i else 0#n) := by
    intro k
    induction k with
    | zero => simp [low_zero]
    | succ k ih => rw [List.range_succ, xorSum_append, ← ih, low_succ]; simp
  rw [← key n, low_full]

end Verif.Lemmas
