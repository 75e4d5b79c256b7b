import Verif.Model.Buffers

/-! Lemmas on arrays: writes one after the other, reads of written cells. -/

namespace Verif.Model.Buffers
open Verif.Model Verif.Model.Integer

theorem length_alloc {α : Type} (n : Nat) : (alloc n : Buf α).length = n := by simp [alloc]

theorem length_given {α : Type} (l : List α) : (given l).length = l.length := by simp [given]

theorem mapM_given {α : Type} (l : List α) : (given l).mapM id = some l := by
  induction l with
  | nil => rfl
  | cons a l ih =>
    show List.mapM id (some a :: given l) = _
    rw [List.mapM_cons, ih]; rfl

theorem mapM_some {α : Type} : ∀ {b : Buf α} {l : List α}, b.mapM id = some l → b = given l
  | [], l, h => by
    have : l = [] := by simpa using h.symm
    subst this; rfl
  | none :: b, l, h => by
    rw [List.mapM_cons] at h; exact absurd h (by simp)
  | some a :: b, l, h => by
    rw [List.mapM_cons] at h
    cases hb : b.mapM id with
    | none => rw [hb] at h; exact absurd h (by simp)
    | some r =>
      rw [hb] at h
      have : l = a :: r := by simpa using h.symm
      subst this
      rw [mapM_some hb]; rfl

/-- Reading a written part of an array. -/
theorem load_ok {α : Type} (b : Buf α) (k : Nat) (l : List α) (h : (b.drop k).take l.length = given l)
    (hk : k + l.length ≤ b.length) : load b k l.length = .ok l := by
  unfold load
  rw [if_pos hk, h, mapM_given]

theorem load_ok' {α : Type} (b : Buf α) (k n : Nat) (l : List α) (hn : l.length = n) (h : (b.drop k).take n = given l)
    (hk : k + n ≤ b.length) : load b k n = .ok l := by
  subst hn; exact load_ok b k l h hk

theorem load_inv {α : Type} {b : Buf α} {k n : Nat} {l : List α} (h : load b k n = .ok l) :
    k + n ≤ b.length ∧ (b.drop k).take n = given l := by
  unfold load at h
  split at h
  · rename_i hk
    split at h
    · rename_i x hx
      have : x = l := by simpa using h
      subst this
      exact ⟨hk, mapM_some hx⟩
    · simp at h
  · simp at h

theorem load_given {α : Type} (l : List α) (n : Nat) (hn : n ≤ l.length) : load (given l) 0 n = .ok (l.take n) := by
  refine load_ok' _ _ _ _ (by simp [hn]) ?_ (by simpa [given] using hn)
  simp [given]

theorem load_all {α : Type} (l : List α) (n : Nat) (hn : l.length = n) : load (given l) 0 n = .ok l := by
  subst hn; rw [load_given l _ (Nat.le_refl _), List.take_length]

theorem load_short {α : Type} (b : Buf α) (k n : Nat) (h : b.length < k + n) :
    load b k n = .error (.ub "read outside the array") := by
  unfold load; rw [if_neg (by omega)]

/-- A write behind the part written so far. -/
theorem store_front {α : Type} (l x : List α) (k m : Nat) (hk : l.length = k) (hx : x.length ≤ m) :
    store (given l ++ alloc m) k x = .ok (given (l ++ x) ++ alloc (m - x.length)) := by
  subst hk
  have hb : l.length + x.length ≤ (given l ++ (alloc m : Buf α)).length := by
    simp [given, alloc]; omega
  unfold store
  rw [if_pos hb]
  have h1 : (given l ++ (alloc m : Buf α)).take l.length = given l := by
    rw [show l.length = (given l).length from (length_given l).symm, List.take_left]
  have h2 : (given l ++ (alloc m : Buf α)).drop (l.length + x.length) = alloc (m - x.length) := by
    rw [show l.length = (given l).length from (length_given l).symm, List.drop_append]
    simp [given, alloc]
  rw [h1, h2]
  simp [given]

/-- The same into a fresh array. -/
theorem store_alloc {α : Type} (x : List α) (m : Nat) (hx : x.length ≤ m) :
    store (alloc m) 0 x = .ok (given x ++ alloc (m - x.length)) := by
  have := store_front ([] : List α) x 0 m rfl hx
  simpa [given] using this

theorem store_full {α : Type} (x : List α) (m : Nat) (hx : x.length = m) : store (alloc m) 0 x = .ok (given x) := by
  rw [store_alloc x m (Nat.le_of_eq hx)]; simp [hx, alloc]

/-- Overwriting a whole array. -/
theorem store_whole {α : Type} (b : Buf α) (x : List α) (h : x.length = b.length) : store b 0 x = .ok (given x) := by
  unfold store
  rw [if_pos (by omega)]
  simp [given, h]

theorem store_short {α : Type} (b : Buf α) (k : Nat) (x : List α) (h : b.length < k + x.length) :
    store b k x = .error (.ub "write outside the array") := by
  unfold store; rw [if_neg (by omega)]

theorem rev_given {α : Type} (l : List α) (n : Nat) (hn : l.length = n) : rev (given l) 0 n = .ok (given l.reverse) := by
  unfold rev
  rw [load_all l n hn]
  exact store_whole _ _ (by simp [given])

/-- Writing one cell. -/
theorem store_set {α : Type} (b : Buf α) (k : Nat) (v : α) (h : k < b.length) : store b k [v] = .ok (b.set k (some v)) := by
  unfold store
  rw [if_pos (by simp only [List.length_singleton]; omega)]
  rw [List.set_eq_take_append_cons_drop, if_pos h]
  simp

theorem store_length {α : Type} {b b' : Buf α} {k : Nat} {x : List α} (h : store b k x = .ok b') : b'.length = b.length := by
  unfold store at h
  split at h
  · rename_i hk
    injection h with h
    subst h
    simp; omega
  · simp at h

/-- Cell `i` after a write. -/
theorem store_get {α : Type} {b b' : Buf α} {k : Nat} {x : List α} (h : store b k x = .ok b') (i : Nat) :
    b'[i]? = if k ≤ i ∧ i < k + x.length then (x[i - k]?).map some else b[i]? := by
  unfold store at h
  split at h
  · rename_i hk
    injection h with h
    subst h
    have hk' : (b.take k).length = k := by simp; omega
    by_cases h1 : i < k
    · rw [if_neg (by omega), List.append_assoc, List.getElem?_append_left (by omega), List.getElem?_take_of_lt h1]
    · by_cases h2 : i < k + x.length
      · rw [if_pos ⟨by omega, h2⟩, List.append_assoc, List.getElem?_append_right (by omega),
          List.getElem?_append_left (by simp; omega)]
        simp [hk']
      · rw [if_neg (by omega), List.getElem?_append_right (by simp; omega)]
        simp only [List.length_append, hk', List.length_map, List.getElem?_drop]
        congr 1; omega
  · simp at h

end Verif.Model.Buffers
