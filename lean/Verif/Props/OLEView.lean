import Verif.Props.OLE

/-! C56: what the receiver of an oblivious linear evaluation learns about the sender's inputs.  The sender receives nothing but the correlations. -/

namespace Verif.Props.OLEView
open Verif.Model Verif.Model.OLE

/-! ### GF(2^128) -/

/-- The choice bit for the `k`-th random OT. -/
def choice (inr : List Block) (k : Nat) : Bool := (inr.getD (k / 128) 0#128).getLsbD (k % 128)

/-- The difference of two inputs of the sender, for the `k`-th OT. -/
def gap (ins ins' : List Block) (k : Nat) : Block := ins.getD (k / 128) 0#128 ^^^ ins'.getD (k / 128) 0#128

/-- The strings of the random OTs with those that were not chosen changed. -/
def alter0 (ins ins' inr : List Block) (raw0 : Nat → Block) (k : Nat) : Block := if choice inr k then raw0 k ^^^ gap ins ins' k else raw0 k
def alter1 (ins ins' inr : List Block) (raw1 : Nat → Block) (k : Nat) : Block := if choice inr k then raw1 k else raw1 k ^^^ gap ins ins' k

theorem alter_xor (ins ins' inr : List Block) (raw0 raw1 : Nat → Block) (k : Nat) :
    alter0 ins ins' inr raw0 k ^^^ alter1 ins ins' inr raw1 k = raw0 k ^^^ raw1 k ^^^ gap ins ins' k := by
  unfold alter0 alter1
  cases choice inr k <;> simp only [if_true, Bool.false_eq_true, if_false] <;> ac_rfl

theorem f2k_messages (raw0 raw1 raw0' raw1' : Nat → Block) (all all' : List Block)
    (hx : ∀ k, raw0' k ^^^ raw1' k = raw0 k ^^^ raw1 k ^^^ gap all all' k) :
    ∀ (ins ins' : List Block) (i : Nat), ins.length = ins'.length → ins = all.drop i → ins' = all'.drop i →
      (f2kSendAll raw0 raw1 i ins).2 = (f2kSendAll raw0' raw1' i ins').2 := by
  intro ins
  induction ins with
  | nil => intro ins' i hl _ _; rw [List.length_eq_zero_iff.1 hl.symm]; rfl
  | cons x ins ih =>
    intro ins' i hl h1 h2
    cases ins' with
    | nil => simp at hl
    | cons x' ins' =>
      have d1 : ins = all.drop (i + 1) := by rw [← List.tail_drop, ← h1]; rfl
      have d2 : ins' = all'.drop (i + 1) := by rw [← List.tail_drop, ← h2]; rfl
      have g1 : all.getD i 0#128 = x := by
        have := congrArg (·.getD 0 0#128) h1
        simpa [List.getD_eq_getElem?_getD, List.getElem?_drop] using this.symm
      have g2 : all'.getD i 0#128 = x' := by
        have := congrArg (·.getD 0 0#128) h2
        simpa [List.getD_eq_getElem?_getD, List.getElem?_drop] using this.symm
      simp only [f2kSendAll, f2kSend]
      rw [ih ins' (i + 1) (by simpa using hl) d1 d2]
      congr 1
      apply List.map_congr_left
      intro j hj
      have hj : j < 128 := List.mem_range.1 hj
      have hd : (i * 128 + j) / 128 = i := by omega
      rw [hx, gap, hd, g1, g2]
      simp [BitVec.xor_assoc]

/-- **C56, GF(2^128).**  For all inputs of the receiver and any two input lists of the sender of the same length: after a change of the random strings that the receiver did not
choose, its view — the strings it chose and the messages — with the one list is its view with the other.  The change is its own inverse. -/
theorem C56_f2k (raw0 raw1 : Nat → Block) (ins ins' inr : List Block) (hl : ins.length = ins'.length) :
    (f2kSendAll raw0 raw1 0 ins).2 = (f2kSendAll (alter0 ins ins' inr raw0) (alter1 ins ins' inr raw1) 0 ins').2
    ∧ (∀ k, (if choice inr k then alter1 ins ins' inr raw1 k else alter0 ins ins' inr raw0 k) = if choice inr k then raw1 k else raw0 k)
    ∧ (∀ k, alter0 ins ins' inr (alter0 ins ins' inr raw0) k = raw0 k ∧ alter1 ins ins' inr (alter1 ins ins' inr raw1) k = raw1 k) := by
  refine ⟨f2k_messages _ _ _ _ ins ins' (alter_xor ins ins' inr raw0 raw1) ins ins' 0 hl rfl rfl, fun k => ?_, fun k => ?_⟩
  · unfold alter0 alter1; cases choice inr k <;> rfl
  · unfold alter0 alter1; cases choice inr k <;> simp [BitVec.xor_assoc]

/-- The strings of `choice` are those the receiver of the model reads. -/
theorem C56_f2k_chosen (raw : Nat → Bool → Block) (raw' : Nat → Bool → Block) (all : List Block) (h : ∀ k, raw k (choice all k) = raw' k (choice all k)) :
    ∀ (inr : List Block) (i : Nat) (q : List Block), inr = all.drop i → f2kRecvAll raw i inr q = f2kRecvAll raw' i inr q := by
  intro inr
  induction inr with
  | nil => intro i q _; rfl
  | cons y inr ih =>
    intro i q h1
    have d1 : inr = all.drop (i + 1) := by rw [← List.tail_drop, ← h1]; rfl
    have g1 : all.getD i 0#128 = y := by
      have := congrArg (·.getD 0 0#128) h1
      simpa [List.getD_eq_getElem?_getD, List.getElem?_drop] using this.symm
    have hr : f2kRecv raw y i (q.take 128) = f2kRecv raw' y i (q.take 128) := by
      unfold f2kRecv
      congr 1
      apply List.map_congr_left
      intro j hj
      have hj : j < 128 := List.mem_range.1 hj
      have hk := h (i * 128 + j)
      have hd : (i * 128 + j) / 128 = i := by omega
      have hm : (i * 128 + j) % 128 = j := by omega
      rw [choice, hd, hm, g1] at hk
      simp only [hk]
    simp only [f2kRecvAll, hr, ih (i + 1) _ d1]

/-! ### Prime fields -/

/-- The block of the `k`-th correlated OT that the receiver has, and the one it does not have. -/
def has (delta : Block) (K : Nat → Block) (c : Nat → Bool) (k : Nat) : Block := K k ^^^ (if c k then delta else 0)
def hasNot (delta : Block) (K : Nat → Block) (c : Nat → Bool) (k : Nat) : Block := K k ^^^ (if c k then 0 else delta)

/-- The blocks of the first `N` OTs do not coincide. -/
def Distinct (delta : Block) (K : Nat → Block) (c : Nat → Bool) (N : Nat) : Prop :=
  ∀ k < N, ∀ l < N, hasNot delta K c k ≠ has delta K c l ∧ (hasNot delta K c k = hasNot delta K c l → k = l)

open Classical in
/-- The hash function with its values at the blocks the receiver does not have changed by `d`. -/
noncomputable def shiftAt (delta : Block) (K : Nat → Block) (c : Nat → Bool) (N : Nat) (d : Nat → Int) (q : Int) (h : Block → Int) (b : Block) : Int :=
  if e : ∃ k, k < N ∧ b = hasNot delta K c k then (h b + d e.choose) % q else h b

theorem shiftAt_has {delta : Block} {K : Nat → Block} {c : Nat → Bool} {N : Nat} (hd : Distinct delta K c N) (d : Nat → Int) (q : Int) (h : Block → Int)
    {k : Nat} (hk : k < N) : shiftAt delta K c N d q h (has delta K c k) = h (has delta K c k) := by
  unfold shiftAt
  rw [dif_neg]
  rintro ⟨l, hl, e⟩
  exact (hd l hl k hk).1 e.symm

theorem shiftAt_hasNot {delta : Block} {K : Nat → Block} {c : Nat → Bool} {N : Nat} (hd : Distinct delta K c N) (d : Nat → Int) (q : Int) (h : Block → Int)
    {k : Nat} (hk : k < N) : shiftAt delta K c N d q h (hasNot delta K c k) = (h (hasNot delta K c k) + d k) % q := by
  unfold shiftAt
  have e : ∃ l, l < N ∧ hasNot delta K c k = hasNot delta K c l := ⟨k, hk, rfl⟩
  rw [dif_pos e]
  rw [← (hd k hk _ e.choose_spec.1).2 e.choose_spec.2]

/-- Both pads together, with the shifted function. -/
theorem pads {delta : Block} {K : Nat → Block} {c : Nat → Bool} {N : Nat} (hd : Distinct delta K c N) (d : Nat → Int) (q : Int) (h : Block → Int)
    {k : Nat} (hk : k < N) : (shiftAt delta K c N d q h (K k) + shiftAt delta K c N d q h (K k ^^^ delta)) % q = (h (K k) + h (K k ^^^ delta) + d k) % q := by
  have h1 := shiftAt_has hd d q h hk
  have h2 := shiftAt_hasNot hd d q h hk
  cases hc : c k with
  | true =>
    simp only [has, hasNot, hc, if_true, BitVec.ofNat_eq_ofNat, BitVec.xor_zero] at h1 h2
    rw [h1, h2, Int.emod_add_emod]
    congr 1
    ring
  | false =>
    simp only [has, hasNot, hc, Bool.false_eq_true, if_false, BitVec.ofNat_eq_ofNat, BitVec.xor_zero] at h1 h2
    rw [h1, h2, Int.add_emod_emod]
    congr 1
    ring

theorem sendLoop_messages (h h' : Block → Int) (q : Int) (delta : Block) (x x' : Int) (K : Nat → Block) : ∀ (l : List (Nat × Nat)) (o o' : Int),
    (∀ p ∈ l, (h (K p.2) + h (K p.2 ^^^ delta) + x) % q = (h' (K p.2) + h' (K p.2 ^^^ delta) + x') % q) →
    (sendLoop h q delta x (l.map fun p => (p.1, K p.2)) o).2 = (sendLoop h' q delta x' (l.map fun p => (p.1, K p.2)) o').2 := by
  intro l
  induction l with
  | nil => intro o o' _; rfl
  | cons p l ih =>
    intro o o' hp
    simp only [List.map_cons, sendLoop]
    rw [hp p (by simp), ih _ _ fun p hp' => hp p (by simp [hp'])]

theorem send_messages (h h' : Block → Int) (q : Int) (n : Nat) (delta : Block) (K : Nat → Block) (all all' : List Int)
    (hp : ∀ i < all.length, ∀ j < n, (h (K (i * n + j)) + h (K (i * n + j) ^^^ delta) + all.getD i 0) % q
      = (h' (K (i * n + j)) + h' (K (i * n + j) ^^^ delta) + all'.getD i 0) % q) :
    ∀ (ins ins' : List Int) (i : Nat), ins.length = ins'.length → ins = all.drop i → ins' = all'.drop i →
      (send h q n delta K i ins).2 = (send h' q n delta K i ins').2 := by
  intro ins
  induction ins with
  | nil => intro ins' i hl _ _; rw [List.length_eq_zero_iff.1 hl.symm]; rfl
  | cons x ins ih =>
    intro ins' i hl h1 h2
    cases ins' with
    | nil => simp at hl
    | cons x' ins' =>
      have d1 : ins = all.drop (i + 1) := by rw [← List.tail_drop, ← h1]; rfl
      have d2 : ins' = all'.drop (i + 1) := by rw [← List.tail_drop, ← h2]; rfl
      have g1 : all.getD i 0 = x := by
        have := congrArg (·.getD 0 0) h1
        simpa [List.getD_eq_getElem?_getD, List.getElem?_drop] using this.symm
      have g2 : all'.getD i 0 = x' := by
        have := congrArg (·.getD 0 0) h2
        simpa [List.getD_eq_getElem?_getD, List.getElem?_drop] using this.symm
      have hi : i < all.length := by
        by_contra hc
        rw [List.drop_eq_nil_of_le (by omega)] at h1
        cases h1
      simp only [send]
      rw [ih ins' (i + 1) (by simpa using hl) d1 d2, sendLoop_messages h h' q delta x x' K (slice n i) 0 0]
      intro p hpm
      simp only [slice, List.mem_map, List.mem_range] at hpm
      obtain ⟨j, hj, rfl⟩ := hpm
      have := hp i hi j hj
      rwa [g1, g2] at this

/-- **C56, prime fields.**  For all choice bits and any two input lists of the sender of the same length: change the values of the hash function at the blocks the receiver does not have by
the differences of the inputs.  Then the messages with the one list and the hash function are the messages with the other list and the changed one, and both
functions agree on the blocks the receiver has.  The changes for the two directions cancel, so for a random function the receiver's
view has the same distribution. -/
theorem C56_prime (h : Block → Int) (q : Int) (n : Nat) (delta : Block) (K : Nat → Block) (c : Nat → Bool) (ins ins' : List Int)
    (hl : ins.length = ins'.length) (hd : Distinct delta K c (ins.length * n)) :
    let d := fun k => ins.getD (k / n) 0 - ins'.getD (k / n) 0
    let h' := shiftAt delta K c (ins.length * n) d q h
    (send h q n delta K 0 ins).2 = (send h' q n delta K 0 ins').2
    ∧ (∀ k < ins.length * n, h' (has delta K c k) = h (has delta K c k))
    ∧ ((∀ b, h b % q = h b) → shiftAt delta K c (ins.length * n) (fun k => - d k) q h' = h) := by
  intro d h'
  refine ⟨?_, fun k hk => shiftAt_has hd d q h hk, fun hr => ?_⟩
  · refine send_messages h h' q n delta K ins ins' (fun i hi j hj => ?_) ins ins' 0 hl rfl rfl
    have hk : i * n + j < ins.length * n := by nlinarith
    have hdiv : (i * n + j) / n = i := by
      rw [Nat.add_comm, Nat.add_mul_div_right _ _ (by omega), Nat.div_eq_of_lt hj, Nat.zero_add]
    have hp := pads hd d q h hk
    rw [Int.add_emod, ← Int.add_emod, ← Int.emod_add_emod (h' (K (i * n + j)) + h' (K (i * n + j) ^^^ delta)), hp, Int.emod_add_emod]
    simp only [d, hdiv]
    congr 1
    ring
  · funext b
    by_cases e : ∃ k, k < ins.length * n ∧ b = hasNot delta K c k
    · obtain ⟨k, hk, rfl⟩ := e
      rw [shiftAt_hasNot hd _ q h' hk, show h' (hasNot delta K c k) = (h (hasNot delta K c k) + d k) % q from shiftAt_hasNot hd d q h hk, Int.emod_add_emod, add_neg_cancel_right, hr]
    · unfold shiftAt
      rw [dif_neg e]
      show shiftAt delta K c (ins.length * n) d q h b = h b
      unfold shiftAt
      rw [dif_neg e]

example : Distinct 256#128 (fun k => BitVec.ofNat 128 k) (fun k => k % 2 == 0) (3 * 10) := by
  unfold Distinct has hasNot
  decide +kernel

example : ([5, 6, 7] : List Int).length = [1, 2, 3].length ∧ ∀ k < 256, alter0 [5, 6] [1, 2] [7, 8] (fun k => BitVec.ofNat 128 k) k
    = if k = 0 ∨ k = 1 ∨ k = 2 then BitVec.ofNat 128 k ^^^ 4#128 else if k = 131 then BitVec.ofNat 128 k ^^^ 4#128 else BitVec.ofNat 128 k := by
  decide +kernel

end Verif.Props.OLEView
