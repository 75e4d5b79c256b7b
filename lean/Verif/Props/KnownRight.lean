import Verif.Spec.Known

/-! # C96: what is taken to be known of a wire is its value, whatever the private inputs -/

namespace Verif.Props.TrafficShape
open Verif.Spec.Circuit

/-- What is known is true. -/
def Right (w : List Bool) (k : List (Option Bool)) : Prop := w.length = k.length ∧ ∀ i b, known k i = some b → get w i = b

theorem known_and {x y : Option Bool} {u v b : Bool} (hx : ∀ b, x = some b → u = b) (hy : ∀ b, y = some b → v = b)
    (h : knownAnd x y = some b) : (u && v) = b := by
  cases x with
  | none =>
    cases y with
    | none => cases h
    | some c => cases c <;> simp [knownAnd] at h; simp [hy false rfl, h]
  | some a =>
    have := hx a rfl
    subst this
    cases u with
    | false => cases y <;> simp_all [knownAnd]
    | true =>
      cases y with
      | none => cases h
      | some c => have := hy c rfl; subst this; cases v <;> simp_all [knownAnd]

theorem known_xor {x y : Option Bool} {u v b : Bool} (hx : ∀ b, x = some b → u = b) (hy : ∀ b, y = some b → v = b)
    (h : knownXor x y = some b) : (u != v) = b := by
  cases x with
  | none => cases h
  | some a =>
    cases y with
    | none => cases h
    | some c => rw [hx a rfl, hy c rfl]; exact Option.some.inj h

theorem right_push {w : List Bool} {k : List (Option Bool)} (h : Right w k) {u : Bool} {x : Option Bool} (hx : ∀ b, x = some b → u = b) :
    Right (w ++ [u]) (k ++ [x]) := by
  refine ⟨by simp [h.1], fun i b hb => ?_⟩
  have hi := h.2 i b
  simp only [known, Verif.Spec.Circuit.get, List.getD_eq_getElem?_getD] at hb hi ⊢
  by_cases h1 : i < k.length
  · rw [List.getElem?_append_left h1] at hb
    rw [List.getElem?_append_left (by rw [h.1]; exact h1)]
    exact hi hb
  · by_cases h2 : i = k.length
    · subst h2
      rw [List.getElem?_append_right (Nat.le_refl _)] at hb
      rw [List.getElem?_append_right (Nat.le_of_eq h.1), h.1]
      simp at hb ⊢
      exact hx b hb
    · rw [List.getElem?_eq_none (by simp; omega)] at hb
      rw [List.getElem?_eq_none (by simp [h.1]; omega)]
      simpa using hb

theorem right_step {w : List Bool} {k : List (Option Bool)} (h : Right w k) (op : Op) : Right (next w op) (nextKnown k op) := by
  cases op with
  | pub b => exact right_push h fun c hc => Option.some.inj hc
  | inA b => exact right_push h fun c hc => nomatch hc
  | inB b => exact right_push h fun c hc => nomatch hc
  | and i j => exact right_push h fun c hc => known_and (h.2 i) (h.2 j) hc
  | xor i j => exact right_push h fun c hc => known_xor (h.2 i) (h.2 j) hc
  | not i =>
    refine right_push h fun c hc => ?_
    cases hk : known k i with
    | none => rw [hk] at hc; cases hc
    | some a => rw [hk] at hc; rw [h.2 i a hk]; exact Option.some.inj hc
  | reveal p ws => simpa [next, newWire, nextKnown, newKnown] using h

/-- After every program: a wire that counts as known has that value, and it counts as known with all private inputs or with none. -/
theorem C96_known_right (ops : List Op) :
    (∀ i b, known (ops.foldl nextKnown []) i = some b → get (ops.foldl next []) i = b) ∧
    ∀ ops' : List Op, ops.map blank = ops'.map blank → ops.foldl nextKnown [] = ops'.foldl nextKnown [] := by
  constructor
  · have : ∀ (ops : List Op) w k, Right w k → Right (ops.foldl next w) (ops.foldl nextKnown k) := by
      intro ops
      induction ops with
      | nil => intro w k h; exact h
      | cons op ops ih => intro w k h; exact ih _ _ (right_step h op)
    exact (this ops [] [] ⟨rfl, fun i b h => by simpa [known, Verif.Spec.Circuit.get] using h⟩).2
  · intro ops' hs
    have bl : ∀ (ops : List Op) k, (ops.map blank).foldl nextKnown k = ops.foldl nextKnown k := by
      intro ops
      induction ops with
      | nil => intro k; rfl
      | cons op ops ih =>
        intro k
        rw [List.map_cons, List.foldl_cons, List.foldl_cons, ih]
        cases op <;> rfl
    rw [← bl ops, hs, bl]

/-- A conjunction with the constant false is known, one with the constant true is not. -/
example (a : Bool) : [Op.inA a, .pub false, .pub true, .and 0 1, .and 0 2, .not 3].foldl nextKnown []
    = [none, some false, some true, some false, none, some true] := rfl

end Verif.Props.TrafficShape
