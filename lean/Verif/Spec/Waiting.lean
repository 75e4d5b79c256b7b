/-!
# Runs that always come to an end

For a step relation: whatever is done first, only so many steps are possible, and where nothing more can be done all is well.
-/

namespace Verif.Spec

/-- `n` steps. -/
inductive Steps {α : Type} (R : α → α → Prop) : Nat → α → α → Prop
  | zero (s : α) : Steps R 0 s s
  | succ {n : Nat} {s t u : α} (h : R s t) (r : Steps R n t u) : Steps R (n + 1) s u

/-- Every run is finite, of bounded length, and one that cannot be continued ended in a good state. -/
def AlwaysEnds {α : Type} (R : α → α → Prop) (Good : α → Prop) (s : α) : Prop :=
  (∃ N, ∀ n t, Steps R n s t → n ≤ N) ∧ ∀ n t, Steps R n s t → Good t ∨ ∃ u, R t u

/-- A run can get to a state that is not good and in which nothing can be done. -/
def CanHang {α : Type} (R : α → α → Prop) (Good : α → Prop) (s : α) : Prop :=
  ∃ n t, Steps R n s t ∧ ¬ Good t ∧ ∀ u, ¬ R t u

end Verif.Spec
