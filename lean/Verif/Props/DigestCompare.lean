import Verif.Props.ComConv
import Mathlib.Data.Fintype.Pi
import Mathlib.Data.Fintype.BigOperators
import Mathlib.SetTheory.Cardinal.Finite
import Mathlib.Algebra.BigOperators.Intervals

/-! C92: how many digests the comparison of `ComConv::open` takes for equal, and what a sender of the conversion gets from it. -/

namespace Verif.Props.DigestCompare
open Verif.Model Verif.Model.ComConv Verif.Props.ComConv

/-- Digests of `n` bytes. -/
abbrev Dig (n : Nat) := Fin n → Byte

theorem card_byte : Nat.card Byte = 256 := by
  rw [Nat.card_congr (⟨fun b => b.toFin, fun f => ⟨f⟩, fun _ => rfl, fun _ => rfl⟩ : Byte ≃ Fin (2 ^ 8)), Nat.card_eq_fintype_card,
    Fintype.card_fin]
  rfl

instance : Finite Byte := Nat.finite_of_card_ne_zero (by rw [card_byte]; decide)

theorem card_dig (n : Nat) : Nat.card (Dig n) = 256 ^ n := by
  rw [Nat.card_pi]; simp [card_byte]

theorem card_nonzero : Nat.card { b : Byte // b ≠ 0 } = 255 := by
  have e : { b : Byte // b ≠ 0 } ≃ Fin 255 := {
    toFun := fun b => ⟨b.1.toNat - 1, by have := b.1.isLt; omega⟩
    invFun := fun i => ⟨BitVec.ofNat 8 (i.1 + 1), by
      intro h
      have := congrArg BitVec.toNat h
      have hi := i.2
      rw [BitVec.toNat_ofNat, show BitVec.toNat (0 : Byte) = 0 from rfl] at this
      omega⟩
    left_inv := by
      rintro ⟨b, hb⟩
      apply Subtype.ext
      apply BitVec.eq_of_toNat_eq
      have h0 : b.toNat ≠ 0 := fun h => hb (BitVec.eq_of_toNat_eq (by simpa using h))
      have := b.isLt
      simp only [BitVec.toNat_ofNat]
      omega
    right_inv := by
      rintro ⟨i, hi⟩
      apply Fin.ext
      simp only [BitVec.toNat_ofNat]
      omega }
  rw [Nat.card_congr e, Nat.card_eq_fintype_card, Fintype.card_fin]

theorem ofFn_succ {n : Nat} (a : Dig (n + 1)) : List.ofFn a = a 0 :: List.ofFn (Fin.tail a) := by
  rw [List.ofFn_succ]; rfl

theorem cmp_zero (as bs : List Byte) : strncmpEq (0 :: as) (0 :: bs) = true := by
  rw [strncmpEq, if_neg (by simp), if_pos rfl]

theorem cmp_ne {x y : Byte} (h : x ≠ y) (as bs : List Byte) : strncmpEq (x :: as) (y :: bs) = false := by
  rw [strncmpEq, if_pos h]

theorem cmp_same {y : Byte} (h : y ≠ 0) (as bs : List Byte) : strncmpEq (y :: as) (y :: bs) = strncmpEq as bs := by
  rw [strncmpEq, if_neg (by simp), if_neg h]

/-- Comparison with a digest that starts with a nonzero byte. -/
theorem cmp_iff {y : Byte} (h : y ≠ 0) (x : Byte) (as bs : List Byte) :
    strncmpEq (x :: as) (y :: bs) = true ↔ x = y ∧ strncmpEq as bs = true := by
  by_cases e : x = y
  · subst e; rw [cmp_same h]; exact ⟨fun k => ⟨rfl, k⟩, fun k => k.2⟩
  · rw [cmp_ne e]; exact ⟨fun k => (Bool.noConfusion k), fun k => absurd k.1 e⟩

/-- Digests with a given first byte. -/
def headEquiv {n : Nat} (y : Byte) (P : Dig n → Prop) : { a : Dig (n + 1) // a 0 = y ∧ P (Fin.tail a) } ≃ { b : Dig n // P b } where
  toFun a := ⟨Fin.tail a.1, a.2.2⟩
  invFun b := ⟨Fin.cons y b.1, by simpa using b.2⟩
  left_inv := by
    rintro ⟨a, h, -⟩
    apply Subtype.ext
    subst h
    exact Fin.cons_self_tail a
  right_inv := by rintro ⟨b, h⟩; apply Subtype.ext; simp

/-- **C92, one digest.**  If the stored digest has its first zero byte before its last `t.length` bytes, exactly `256 ^ t.length` digests are
taken for equal to it. -/
theorem C92_accepted (p t : List Byte) (hp : 0 ∉ p) (n : Nat) (hn : n = p.length + 1 + t.length) :
    Nat.card { a : Dig n // strncmpEq (List.ofFn a) (p ++ 0 :: t) = true } = 256 ^ t.length := by
  induction p generalizing n with
  | nil =>
    obtain ⟨m, rfl⟩ : ∃ m, n = m + 1 := ⟨t.length, by simp at hn; omega⟩
    have hm : m = t.length := by simp at hn; omega
    have e : { a : Dig (m + 1) // strncmpEq (List.ofFn a) ([] ++ 0 :: t) = true } ≃ { a : Dig (m + 1) // a 0 = 0 ∧ True } :=
      Equiv.subtypeEquivRight fun a => by
        rw [ofFn_succ, List.nil_append]
        by_cases h : a 0 = 0
        · rw [h, cmp_zero]; exact ⟨fun _ => ⟨rfl, trivial⟩, fun _ => rfl⟩
        · rw [cmp_ne h]; exact ⟨fun k => (Bool.noConfusion k), fun k => absurd k.1 h⟩
    rw [Nat.card_congr e, Nat.card_congr (headEquiv 0 fun _ => True), Nat.card_congr (Equiv.subtypeUnivEquiv fun _ => trivial), card_dig, hm]
  | cons y p ih =>
    obtain ⟨m, rfl⟩ : ∃ m, n = m + 1 := ⟨p.length + 1 + t.length, by simp at hn; omega⟩
    have hy : y ≠ 0 := fun h => hp (h ▸ List.mem_cons_self)
    have e : { a : Dig (m + 1) // strncmpEq (List.ofFn a) (y :: p ++ 0 :: t) = true }
        ≃ { a : Dig (m + 1) // a 0 = y ∧ strncmpEq (List.ofFn (Fin.tail a)) (p ++ 0 :: t) = true } :=
      Equiv.subtypeEquivRight fun a => by
        rw [ofFn_succ, List.cons_append]; exact cmp_iff hy _ _ _
    rw [Nat.card_congr e, Nat.card_congr (headEquiv y fun b => strncmpEq (List.ofFn b) (p ++ 0 :: t) = true)]
    exact ih (fun h => hp (List.mem_cons_of_mem _ h)) m (by simp at hn ⊢; omega)

/-- **C92, a digest without a zero byte** is taken for equal only to itself. -/
theorem C92_accepted_only (d : List Byte) (hd : 0 ∉ d) (n : Nat) (hn : n = d.length) :
    Nat.card { a : Dig n // strncmpEq (List.ofFn a) d = true } = 1 := by
  induction d generalizing n with
  | nil =>
    subst hn
    have e : { a : Dig 0 // strncmpEq (List.ofFn a) [] = true } ≃ Dig 0 := Equiv.subtypeUnivEquiv fun a => by simp [strncmpEq]
    rw [List.length_nil, Nat.card_congr e, card_dig]; rfl
  | cons y d ih =>
    obtain ⟨m, rfl⟩ : ∃ m, n = m + 1 := ⟨d.length, by simpa using hn⟩
    have hy : y ≠ 0 := fun h => hd (h ▸ List.mem_cons_self)
    have e : { a : Dig (m + 1) // strncmpEq (List.ofFn a) (y :: d) = true }
        ≃ { a : Dig (m + 1) // a 0 = y ∧ strncmpEq (List.ofFn (Fin.tail a)) d = true } :=
      Equiv.subtypeEquivRight fun a => by
        rw [ofFn_succ]; exact cmp_iff hy _ _ _
    rw [Nat.card_congr e, Nat.card_congr (headEquiv y fun b => strncmpEq (List.ofFn b) d = true)]
    exact ih (fun h => hd (List.mem_cons_of_mem _ h)) m (by simpa using hn)

/-- Pairs of digests of `n` bytes taken for equal. -/
abbrev Pairs (n : Nat) := { p : Dig n × Dig n // strncmpEq (List.ofFn p.1) (List.ofFn p.2) = true }

/-- A pair taken for equal: both start with a zero byte, or with the same other byte and the rest is taken for equal. -/
def pairsEquiv (n : Nat) : Pairs (n + 1) ≃ (Dig n × Dig n) ⊕ ({ b : Byte // b ≠ 0 } × Pairs n) where
  toFun p := if h : p.1.1 0 = 0 then .inl (Fin.tail p.1.1, Fin.tail p.1.2) else .inr (⟨p.1.1 0, h⟩, ⟨(Fin.tail p.1.1, Fin.tail p.1.2), by
    have hp := p.2
    rw [ofFn_succ, ofFn_succ] at hp
    by_cases e : p.1.1 0 = p.1.2 0
    · rw [← e, cmp_same h] at hp; exact hp
    · rw [cmp_ne e] at hp; cases hp⟩)
  invFun
    | .inl (a, b) => ⟨(Fin.cons 0 a, Fin.cons 0 b), by rw [ofFn_succ, ofFn_succ]; exact cmp_zero _ _⟩
    | .inr (y, p) => ⟨(Fin.cons y.1 p.1.1, Fin.cons y.1 p.1.2), by
        rw [ofFn_succ, ofFn_succ]; exact (cmp_same y.2 _ _).trans p.2⟩
  left_inv := by
    rintro ⟨⟨a, b⟩, h⟩
    have hab : a 0 = b 0 := by
      rw [ofFn_succ, ofFn_succ] at h
      by_contra hne
      rw [cmp_ne hne] at h; cases h
    apply Subtype.ext
    by_cases ha : a 0 = 0
    · have hb : b 0 = 0 := hab ▸ ha
      simp only [ha, dite_true]
      apply Prod.ext
      · show Fin.cons 0 (Fin.tail a) = a
        rw [← ha]; exact Fin.cons_self_tail a
      · show Fin.cons 0 (Fin.tail b) = b
        rw [← hb]; exact Fin.cons_self_tail b
    · simp only [ha, dite_false]
      apply Prod.ext
      · exact Fin.cons_self_tail a
      · show Fin.cons (a 0) (Fin.tail b) = b
        rw [hab]; exact Fin.cons_self_tail b
  right_inv := by
    rintro (⟨a, b⟩ | ⟨⟨y, hy⟩, ⟨⟨a, b⟩, h⟩⟩)
    · simp
    · have hc : (Fin.cons y a : Dig (n + 1)) 0 ≠ 0 := hy
      exact dif_neg hc

theorem pairs_succ (n : Nat) : Nat.card (Pairs (n + 1)) = 256 ^ (2 * n) + 255 * Nat.card (Pairs n) := by
  rw [Nat.card_congr (pairsEquiv n), Nat.card_sum, Nat.card_prod, Nat.card_prod, card_dig, card_nonzero]
  ring

/-- **C92, two digests.**  Of the `256 ^ (2 n)` pairs of digests of `n` bytes exactly this many are taken for equal; `256 ^ n` would be right. -/
theorem C92_pairs (n : Nat) : Nat.card (Pairs n) = ∑ k ∈ Finset.range n, 255 ^ k * 256 ^ (2 * (n - 1 - k)) + 255 ^ n := by
  induction n with
  | zero =>
    have e : Pairs 0 ≃ Dig 0 × Dig 0 := Equiv.subtypeUnivEquiv fun p => by simp [strncmpEq]
    rw [Nat.card_congr e, Nat.card_prod, card_dig]; rfl
  | succ n ih =>
    rw [pairs_succ, ih, Finset.sum_range_succ', Nat.mul_add, Finset.mul_sum]
    have : ∑ k ∈ Finset.range n, 255 * (255 ^ k * 256 ^ (2 * (n - 1 - k)))
        = ∑ k ∈ Finset.range n, 255 ^ (k + 1) * 256 ^ (2 * (n + 1 - 1 - (k + 1))) := by
      apply Finset.sum_congr rfl
      intro k _
      rw [show n + 1 - 1 - (k + 1) = n - 1 - k by omega]; ring
    rw [this]
    simp only [Nat.add_sub_cancel, Nat.sub_zero, pow_zero, one_mul]
    ring

/-- **C92, SHA-256 digests.**  Two digests of 32 bytes chosen at random are taken for equal with a probability between `2^-16` and
`2^-16 + 2^-23`, instead of `2^-256`. -/
theorem C92_pairs_bounds : Nat.card (Dig 32 × Dig 32) ≤ 2 ^ 16 * Nat.card (Pairs 32)
    ∧ 2 ^ 23 * Nat.card (Pairs 32) ≤ (2 ^ 7 + 1) * Nat.card (Dig 32 × Dig 32) := by
  have h : Nat.card (Pairs 32) = ∑ k ∈ Finset.range 32, 255 ^ k * 256 ^ (2 * (32 - 1 - k)) + 255 ^ 32 := C92_pairs 32
  rw [h, Nat.card_prod, card_dig]
  decide +kernel

/-! ### What a sender gets from it -/

/-- **C92, equivocation.**  `open` accepts any seed, offset and `aDelta`, related to nothing sent before, as soon as the two stored digests and
the two digests recomputed from the opened values start with a zero byte.  The sender chooses the stored digest of its commitment freely and
need not know an opening of it. -/
theorem C92_equivocation {G : Type} [AddCommGroup G] (E : Env G) (t t' u u' : List Byte) (seed bDelta : Block) (aDelta : Nat) (macs : List Block)
    (h1 : E.computeHash seed bDelta aDelta = 0 :: u)
    (h2 : E.hash ((keysFrom bDelta macs).flatMap fun k => bn2bin (msgFrom E bDelta aDelta k)) = 0 :: u') :
    E.openRecv (0 :: t) (0 :: t') seed bDelta aDelta macs = true := by
  have h2' : E.hash (msgBytes (E.convert bDelta aDelta (macs.map fun m => if m.getLsbD 0 then m ^^^ bDelta else m)).2) = 0 :: u' := by
    rw [← h2]
    simp only [Env.convert, msgBytes, List.flatMap_map, keysFrom, msgFrom]
  simp only [Env.openRecv, h1, h2', cmp_zero, Bool.and_self]

/-- The stored digest that is accepted by the most openings is one that starts with a zero byte: one digest in 256 matches it. -/
theorem C92_best (d : List Byte) (hd : d.length = 32) :
    256 * Nat.card { a : Dig 32 // strncmpEq (List.ofFn a) d = true } ≤ Nat.card (Dig 32) := by
  rw [card_dig]
  by_cases hz : (0 : Byte) ∈ d
  · obtain ⟨p, t, e, hp⟩ := List.eq_append_cons_of_mem hz
    subst e
    have hl : 32 = p.length + 1 + t.length := by rw [← hd]; simp; omega
    rw [C92_accepted p t hp 32 hl, show (256 : Nat) * 256 ^ t.length = 256 ^ (t.length + 1) by ring]
    exact Nat.pow_le_pow_right (by decide) (by omega)
  · rw [C92_accepted_only d hz 32 hd.symm]; decide +kernel

theorem C92_best_reached (t : List Byte) (ht : t.length = 31) :
    256 * Nat.card { a : Dig 32 // strncmpEq (List.ofFn a) (0 :: t) = true } = Nat.card (Dig 32) := by
  have := C92_accepted [] t (by simp) 32 (by simp [ht])
  rw [List.nil_append] at this
  rw [this, ht, card_dig]; decide +kernel

/-- Short digests: one byte is compared rightly; with two bytes `256 ^ 2 + 255 * 256` pairs are taken for equal. -/
example : Nat.card (Pairs 1) = 256 ∧ Nat.card (Pairs 2) = 256 ^ 2 + 255 * 256 := by
  have h1 := C92_pairs 1
  have h2 := C92_pairs 2
  rw [h1, h2]; decide +kernel

/-- A hash function whose digests may contain zero bytes. -/
def zEnv : Env (ZMod 251) :=
  { exEnv with hash := fun l => (List.range 32).map fun i => BitVec.ofNat 8 (l.foldl (fun a b => 31 * a + b.toNat) i) }

/-- The hypotheses of `C92_equivocation` are met by two different offsets, for the same three MACs and the same stored digests. -/
example : ∀ o ∈ [((105#128 : Block), (21#128 : Block), 1), (13#128, 37#128, 77)],
    (∃ u, zEnv.computeHash o.1 o.2.1 o.2.2 = 0 :: u)
    ∧ (∃ u, zEnv.hash ((keysFrom o.2.1 [4#128, 9#128, 12#128]).flatMap fun k => bn2bin (msgFrom zEnv o.2.1 o.2.2 k)) = 0 :: u)
    ∧ zEnv.openRecv (List.replicate 32 0) (0 :: List.replicate 31 7) o.1 o.2.1 o.2.2 [4#128, 9#128, 12#128] = true := by
  intro o ho
  have key : ∀ l : List Byte, l.head? = some 0 → ∃ u, l = 0 :: u := by
    intro l h
    cases l with
    | nil => cases h
    | cons x l => exact ⟨l, by rw [Option.some.inj h]⟩
  have h1 : (zEnv.computeHash o.1 o.2.1 o.2.2).head? = some 0
      ∧ (zEnv.hash ((keysFrom o.2.1 [4#128, 9#128, 12#128]).flatMap fun k => bn2bin (msgFrom zEnv o.2.1 o.2.2 k))).head? = some 0 := by
    revert o; decide +kernel
  obtain ⟨u, hu⟩ := key _ h1.1
  obtain ⟨u', hu'⟩ := key _ h1.2
  exact ⟨⟨u, hu⟩, ⟨u', hu'⟩, C92_equivocation zEnv _ _ u u' _ _ _ _ hu hu'⟩

end Verif.Props.DigestCompare
