import Verif.Model.GC
import Mathlib.SetTheory.Cardinal.Finite
import Mathlib.Data.Finite.Prod
import Mathlib.Data.Finite.Sigma
import Mathlib.Data.Finite.Sum
import Mathlib.SetTheory.Cardinal.NatCard
import Mathlib.Algebra.Order.BigOperators.Group.Finset
import Mathlib.Data.Fintype.Pi
import Mathlib.Data.Fintype.Sum
import Mathlib.Algebra.BigOperators.Group.Finset.Basic

/-! Counting lemmas for drawn values: resampling one coordinate, unions, forms in the drawn blocks, functions changed at given points. -/

namespace Verif.Lemmas.Sampling
open Verif.Model Verif.Model.GC

instance : Finite Block := Finite.of_equiv (Fin (2 ^ 128)) ⟨fun f => ⟨f⟩, fun b => b.toFin, fun _ => rfl, fun _ => rfl⟩

theorem card_block : Nat.card Block = 2 ^ 128 := by
  rw [Nat.card_congr (⟨fun b => b.toFin, fun f => ⟨f⟩, fun _ => rfl, fun _ => rfl⟩ : Block ≃ Fin (2 ^ 128)), Nat.card_eq_fintype_card, Fintype.card_fin]

/-- If at most `c` values of one coordinate are bad whatever the others are, at most that part of everything is bad. -/
theorem resample {Ω β : Type} [Finite Ω] [Finite β] (get : Ω → β) (set : Ω → β → Ω) (h1 : ∀ ω z, set (set ω z) (get ω) = ω)
    (h2 : ∀ ω z, get (set ω z) = z) (B : Ω → Prop) (c : Nat) (hc : ∀ ω, Nat.card {y // B (set ω y)} ≤ c) :
    Nat.card {ω // B ω} * Nat.card β ≤ c * Nat.card Ω := by
  have hi : Function.Injective (fun p : {ω // B ω} × β => (⟨set p.1.1 p.2, get p.1.1, by rw [h1]; exact p.1.2⟩ : Σ ω : Ω, {y // B (set ω y)})) := by
    rintro ⟨⟨ω, hω⟩, z⟩ ⟨⟨ω', hω'⟩, z'⟩ h
    simp only [Sigma.mk.injEq] at h
    obtain ⟨e1, e2⟩ := h
    have e3 : get ω = get ω' := by
      have key : ∀ (a b : Ω) (x : {y // B (set a y)}) (y : {y // B (set b y)}), a = b → HEq x y → x.1 = y.1 := by
        intro a b x y h h'; subst h; exact congrArg _ (eq_of_heq h')
      exact key _ _ ⟨get ω, by rw [h1]; exact hω⟩ ⟨get ω', by rw [h1]; exact hω'⟩ e1 e2
    have e4 : z = z' := by rw [← h2 ω z, e1, h2]
    have e5 : ω = ω' := by rw [← h1 ω z, e1, e3, h1]
    subst e4; subst e5; rfl
  have hle := Nat.card_le_card_of_injective _ hi
  rw [Nat.card_prod] at hle
  refine hle.trans ?_
  have := Fintype.ofFinite Ω
  rw [Nat.card_sigma]
  calc ∑ ω : Ω, Nat.card {y // B (set ω y)} ≤ ∑ _ω : Ω, c := Finset.sum_le_sum fun ω _ => hc ω
    _ = c * Nat.card Ω := by rw [Finset.sum_const_nat fun _ _ => rfl, Finset.card_univ, Nat.card_eq_fintype_card, Nat.mul_comm]

theorem card_mono {Ω : Type} [Finite Ω] {p q : Ω → Prop} (h : ∀ x, p x → q x) : Nat.card {x // p x} ≤ Nat.card {x // q x} :=
  Nat.card_le_card_of_injective (fun x : {x // p x} => (⟨x.1, h _ x.2⟩ : {x // q x})) fun _ _ e => Subtype.ext (congrArg (fun y => y.1) e)

theorem card_or {Ω : Type} [Finite Ω] (p q : Ω → Prop) : Nat.card {x // p x ∨ q x} ≤ Nat.card {x // p x} + Nat.card {x // q x} := by
  classical
  rw [← Nat.card_sum]
  refine Nat.card_le_card_of_injective (fun x : {x // p x ∨ q x} => if h : p x.1 then Sum.inl ⟨x.1, h⟩ else Sum.inr ⟨x.1, x.2.resolve_left h⟩) ?_
  intro a b e
  by_cases ha : p a.1 <;> by_cases hb : p b.1 <;> simp [ha, hb] at e <;> exact Subtype.ext e

theorem card_split {Ω : Type} [Finite Ω] (p : Ω → Prop) : Nat.card {x // p x} + Nat.card {x // ¬p x} = Nat.card Ω := by
  classical
  rw [← Nat.card_sum]
  exact Nat.card_congr (Equiv.sumCompl p)

/-- The union of the events of a list. -/
theorem card_exists {Ω ι : Type} [Finite Ω] (l : List ι) (B : ι → Ω → Prop) (M c : Nat) (h : ∀ i ∈ l, Nat.card {x // B i x} * M ≤ c) :
    Nat.card {x // ∃ i ∈ l, B i x} * M ≤ l.length * c := by
  induction l with
  | nil => simp
  | cons i l ih =>
    have h1 : Nat.card {x // ∃ j ∈ i :: l, B j x} ≤ Nat.card {x // B i x} + Nat.card {x // ∃ j ∈ l, B j x} :=
      (card_mono (by intro x hx; simpa using hx)).trans (card_or _ _)
    have h2 := h i List.mem_cons_self
    have h3 := ih fun j hj => h j (List.mem_cons_of_mem _ hj)
    calc _ ≤ (Nat.card {x // B i x} + Nat.card {x // ∃ j ∈ l, B j x}) * M := Nat.mul_le_mul_right _ h1
      _ = Nat.card {x // B i x} * M + Nat.card {x // ∃ j ∈ l, B j x} * M := Nat.add_mul _ _ _
      _ ≤ c + l.length * c := Nat.add_le_add h2 h3
      _ = (i :: l).length * c := by rw [List.length_cons, Nat.add_mul, Nat.one_mul, Nat.add_comm]

/-- At most one block satisfies an equation that determines it. -/
theorem card_one {β : Type} (p : β → Prop) (h : ∀ x y, p x → p y → x = y) : Nat.card {x // p x} ≤ 1 := by
  have : Subsingleton {x // p x} := ⟨fun a b => Subtype.ext (h _ _ a.2 b.2)⟩
  exact Finite.card_le_one_iff_subsingleton.mpr inferInstance

theorem card_none {β : Type} (p : β → Prop) (h : ∀ x, ¬p x) : Nat.card {x // p x} = 0 := by
  have : IsEmpty {x // p x} := ⟨fun a => h _ a.2⟩
  exact Nat.card_of_isEmpty

/-! ### Forms -/

/-- The sum of the selected variables. -/
def lin {X : Type} (xs : List X) (c : X → Bool) (a : X → Block) : Block := xs.foldr (fun x s => sel (c x) (a x) ^^^ s) 0

theorem sel_bne (a b : Bool) (d : Block) : sel (a != b) d = sel a d ^^^ sel b d := by
  cases a <;> cases b <;> simp [sel]

theorem lin_bne {X : Type} (xs : List X) (c c' : X → Bool) (a : X → Block) : lin xs (fun x => c x != c' x) a = lin xs c a ^^^ lin xs c' a := by
  induction xs with
  | nil => simp [lin]
  | cons x xs ih => simp only [lin, List.foldr_cons] at ih ⊢; rw [ih, sel_bne]; ac_rfl

theorem lin_none {X : Type} (xs : List X) (c : X → Bool) (a : X → Block) (h : ∀ x ∈ xs, c x = false) : lin xs c a = 0 := by
  induction xs with
  | nil => rfl
  | cons x xs ih =>
    simp only [lin, List.foldr_cons] at ih ⊢
    rw [ih fun y hy => h y (List.mem_cons_of_mem _ hy), h x List.mem_cons_self]; simp [sel]

theorem lin_single {X : Type} [DecidableEq X] (xs : List X) (hn : xs.Nodup) (x : X) (hx : x ∈ xs) (a : X → Block) :
    lin xs (fun y => decide (y = x)) a = a x := by
  induction xs with
  | nil => cases hx
  | cons y xs ih =>
    rw [List.nodup_cons] at hn
    by_cases hy : y = x
    · subst hy
      have := lin_none xs (fun z => decide (z = y)) a (by intro z hz; simp; rintro rfl; exact hn.1 hz)
      simp only [lin, List.foldr_cons] at this ⊢
      rw [this]; simp [sel]
    · have := ih hn.2 (by rcases List.mem_cons.1 hx with h | h; exact absurd h.symm hy; exact h)
      simp only [lin, List.foldr_cons] at this ⊢
      rw [this]; simp [sel, hy]

theorem lin_congr {X : Type} (xs : List X) (c : X → Bool) (a b : X → Block) (h : ∀ x ∈ xs, c x = true → a x = b x) : lin xs c a = lin xs c b := by
  induction xs with
  | nil => rfl
  | cons x xs ih =>
    have := ih fun y hy => h y (List.mem_cons_of_mem _ hy)
    simp only [lin, List.foldr_cons] at this ⊢
    rw [this]
    cases hc : c x with
    | false => rfl
    | true => rw [h x List.mem_cons_self hc]

/-- Changing a selected variable changes the sum one-to-one. -/
theorem lin_update_inj {X : Type} [DecidableEq X] (xs : List X) (hn : xs.Nodup) (x : X) (hx : x ∈ xs) (c : X → Bool) (hc : c x = true) (a : X → Block)
    (y z : Block) (h : lin xs c (Function.update a x y) = lin xs c (Function.update a x z)) : y = z := by
  have key : ∀ y, lin xs c (Function.update a x y) = lin xs (fun u => c u != decide (u = x)) a ^^^ y := by
    intro y
    have e : c = fun u => (c u != decide (u = x)) != decide (u = x) := by funext u; cases c u <;> cases decide (u = x) <;> rfl
    rw [e, lin_bne, lin_single xs hn x hx, Function.update_self]
    congr 1
    rw [← e]
    apply lin_congr
    intro u _ hu
    by_cases hux : u = x
    · subst hux; simp [hc] at hu
    · rw [Function.update_of_ne hux]
  rw [key, key] at h
  have := congrArg (lin xs (fun u => c u != decide (u = x)) a ^^^ ·) h
  simpa [← BitVec.xor_assoc] using this

/-! ### Functions with given values at given points -/

theorem extend_back {ι α β : Type} {p : ι → α} (hp : Function.Injective p) (v : ι → β) (P : α → β) :
    Function.extend p (P ∘ p) (Function.extend p v P) = P := by
  classical
  funext x
  by_cases h : ∃ i, p i = x
  · obtain ⟨i, rfl⟩ := h
    rw [hp.extend_apply]; rfl
  · rw [Function.extend_apply' _ _ _ h, Function.extend_apply' _ _ _ h]

end Verif.Lemmas.Sampling
