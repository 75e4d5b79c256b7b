import Verif.Props.BackendGame

/-!
The count for C69: in the ordinary backend labels or points of the hash coincide, or the evaluator asks for the sum of a label and the offset, only for a small part of what
can be drawn.
-/

namespace Verif.Props.BackendBound
open Verif.Model Verif.Model.GC Verif.Lemmas Verif.Lemmas.Sampling
open Verif.Spec.Circuit (Party Op)
open Verif.Spec
open Verif.Props (NoCoincidence RevealOk C16_delta pub_isPublic net_run)
open Verif.Props.Direct (start start_inv)
open Verif.Props.EvaluatorView
open Verif.Props.EvaluatorBound (x0 xc xc' pairs mem_pairs length_pairs card_offset points_same makeBlock_xor xor_move ofNat_ne)

/-! ### Counting gates and inputs -/

theorem and_counts (S : Static) (a b : Sym) : (S.and a b).ka = S.ka ∧ (S.and a b).kb = S.kb ∧ S.gid ≤ (S.and a b).gid := by
  cases a <;> cases b <;> simp [Static.and, Static.push]

theorem next_le (S : Static) (op : Op) : S.ka ≤ (S.next op).ka ∧ S.kb ≤ (S.next op).kb ∧ S.gid ≤ (S.next op).gid := by
  cases op with
  | and i j =>
    obtain ⟨h1, h2, h3⟩ := and_counts S (S.get i) (S.get j)
    exact ⟨h1.symm.le, h2.symm.le, h3⟩
  | _ => simp [Static.next, Static.push]

theorem run_le : ∀ (ops : List Op) (S : Static), S.ka ≤ (S.run ops).ka ∧ S.kb ≤ (S.run ops).kb ∧ S.gid ≤ (S.run ops).gid
  | [], _ => ⟨Nat.le_refl _, Nat.le_refl _, Nat.le_refl _⟩
  | op :: ops, S => by
    obtain ⟨a1, a2, a3⟩ := next_le S op
    obtain ⟨b1, b2, b3⟩ := run_le ops (S.next op)
    exact ⟨a1.trans b1, a2.trans b2, a3.trans b3⟩

theorem slotsOp_length (S : Static) (op : Op) : 2 * S.gid + (slotsOp S op).length = 2 * (S.next op).gid := by
  cases op with
  | and i j =>
    simp only [slotsOp, Static.next]
    cases S.get i <;> cases S.get j <;> simp [Static.and, Static.push]; omega
  | _ => rfl

theorem slots_length : ∀ (ops : List Op) (S : Static), 2 * S.gid + (slots S ops).length = 2 * (S.run ops).gid
  | [], _ => rfl
  | op :: ops, S => by
    have h1 := slotsOp_length S op
    have h2 := slots_length ops (S.next op)
    rw [slots, List.length_append, Static.run]; omega

theorem valsAOp_length (E : Env) (V : Vals) (S : Static) (op : Op) : (valsAOp E V S op).length = (slotsOp S op).length := by
  cases op with
  | and i j => simp only [slotsOp, valsAOp]; cases S.get i <;> cases S.get j <;> rfl
  | _ => rfl

theorem valsHOp_length (E : Env) (V : Vals) (d : Block) (S : Static) (w : List Bool) (op : Op) : (valsHOp E V d S w op).length = (slotsOp S op).length := by
  cases op with
  | and i j => simp only [slotsOp, valsHOp]; cases S.get i <;> cases S.get j <;> rfl
  | _ => rfl

theorem valsA_length (E : Env) (V : Vals) : ∀ (ops : List Op) (S : Static), (valsA E V S ops).length = (slots S ops).length
  | [], _ => rfl
  | op :: ops, S => by rw [valsA, slots, List.length_append, List.length_append, valsAOp_length, valsA_length E V ops]

theorem valsH_length (E : Env) (V : Vals) (d : Block) : ∀ (ops : List Op) (S : Static) (w : List Bool), (valsH E V d S w ops).length = (slots S ops).length
  | [], _, _ => rfl
  | op :: ops, S, w => by rw [valsH, slots, List.length_append, List.length_append, valsHOp_length, valsH_length E V d ops]

theorem fits_lists {E : Env} {P : Block → Block} {Q K : Nat → Block} {V : Vals} {d : Block} : ∀ (ops : List Op) (S : Static) (w : List Bool),
    ((slots S ops).map fun x => P (ptA E V x)) = valsA E V S ops → ((slots S ops).map fun x => P (ptH E V d x)) = valsH E V d S w ops →
    (∀ k, k < (S.run ops).ka → Q k = V.ra k) → (∀ k, k < (S.run ops).kb → K k = V.rb k ^^^ sel (E.cotR k) d) → Fits E P Q K V d S w ops
  | [], _, _, _, _, _, _ => trivial
  | op :: ops, S, w, h1, h2, h3, h4 => by
    rw [slots, List.map_append] at h1 h2
    obtain ⟨a1, a2⟩ := List.append_inj h1 (by rw [List.length_map, valsAOp_length])
    obtain ⟨b1, b2⟩ := List.append_inj h2 (by rw [List.length_map, valsHOp_length])
    refine ⟨⟨a1, b1, ?_, ?_⟩, fits_lists ops _ _ a2 b2 h3 h4⟩
    · rintro b rfl
      exact h3 _ (Nat.lt_of_lt_of_le (Nat.lt_succ_self _) (run_le ops (S.next (.inA b))).1)
    · rintro b rfl
      exact h4 _ (Nat.lt_of_lt_of_le (Nat.lt_succ_self _) (run_le ops (S.next (.inB b))).2.1)

/-! ### The variables of a mask -/

/-- Variables of the program so far. -/
def Known (S : Static) (j : Nat) : Prop := j = 0 ∨ (j % 3 = 1 ∧ j / 3 < S.ka) ∨ (j % 3 = 2 ∧ j / 3 < S.kb) ∨ (j ≠ 0 ∧ j % 3 = 0 ∧ j / 3 - 1 < S.gid)

theorem Known.mono {S T : Static} {j : Nat} (h : Known S j) (h1 : S.ka ≤ T.ka) (h2 : S.kb ≤ T.kb) (h3 : S.gid ≤ T.gid) : Known T j := by
  rcases h with h | ⟨a, b⟩ | ⟨a, b⟩ | ⟨a, b, c⟩
  · exact .inl h
  · exact .inr (.inl ⟨a, by omega⟩)
  · exact .inr (.inr (.inl ⟨a, by omega⟩))
  · exact .inr (.inr (.inr ⟨a, b, by omega⟩))

/-- A mask of the program so far. -/
def Mask (S : Static) (m : Nat) : Prop := m ≠ 0 ∧ ∀ j, m.testBit j = true → Known S j

def Valid (S : Static) : Prop := ∀ m, .lab m ∈ S.ws → Mask S m

theorem Mask.mono {S T : Static} {m : Nat} (h : Mask S m) (h1 : S.ka ≤ T.ka) (h2 : S.kb ≤ T.kb) (h3 : S.gid ≤ T.gid) : Mask T m :=
  ⟨h.1, fun j hj => (h.2 j hj).mono h1 h2 h3⟩

theorem mask_bit {S : Static} {j : Nat} (h : Known S j) : Mask S (2 ^ j) := by
  refine ⟨Nat.ne_of_gt (Nat.pow_pos (by decide)), fun k hk => ?_⟩
  rw [Nat.testBit_two_pow, decide_eq_true_eq] at hk
  exact hk ▸ h

theorem mask_one (S : Static) : Mask S 1 := mask_bit (j := 0) (.inl rfl)

theorem mask_xor {S : Static} {a b : Nat} (ha : Mask S a) (hb : Mask S b) (h : a ^^^ b ≠ 0) : Mask S (a ^^^ b) := by
  refine ⟨h, fun j hj => ?_⟩
  rw [Nat.testBit_xor] at hj
  cases h1 : a.testBit j with
  | true => exact ha.2 j h1
  | false =>
    cases h2 : b.testBit j with
    | true => exact hb.2 j h2
    | false => rw [h1, h2] at hj; cases hj

theorem valid_push {S T : Static} (h : Valid S) {x : Sym} (hT : T.ws = S.ws) (h1 : S.ka ≤ T.ka) (h2 : S.kb ≤ T.kb) (h3 : S.gid ≤ T.gid)
    (hx : ∀ m, x = .lab m → Mask T m) : Valid (T.push x) := by
  intro m hm
  simp only [Static.push, hT, List.mem_append, List.mem_singleton] at hm
  rcases hm with hm | hm
  · exact (h m hm).mono h1 h2 h3
  · exact hx m hm.symm

theorem Valid.get {S : Static} (h : Valid S) {i m : Nat} (hi : S.get i = .lab m) : Mask S m := h m (get_mem hi)

theorem valid_next {S : Static} (h : Valid S) (op : Op) : Valid (S.next op) := by
  cases op with
  | pub b => exact valid_push h rfl (Nat.le_refl _) (Nat.le_refl _) (Nat.le_refl _) (by rintro m ⟨⟩)
  | inA b =>
    refine valid_push h rfl (Nat.le_succ _) (Nat.le_refl _) (Nat.le_refl _) ?_
    rintro m ⟨⟩
    exact mask_bit (.inr (.inl ⟨by omega, by show _ < S.ka + 1; omega⟩))
  | inB b =>
    refine valid_push h rfl (Nat.le_refl _) (Nat.le_succ _) (Nat.le_refl _) ?_
    rintro m ⟨⟩
    exact mask_bit (.inr (.inr (.inl ⟨by omega, by show _ < S.kb + 1; omega⟩)))
  | reveal p ws => exact h
  | not i =>
    refine valid_push h rfl (Nat.le_refl _) (Nat.le_refl _) (Nat.le_refl _) ?_
    intro m hm
    cases hi : S.get i with
    | pub b => rw [hi] at hm; cases hm
    | lab a => rw [hi] at hm; cases hm; exact h.get hi
  | xor i j =>
    refine valid_push h rfl (Nat.le_refl _) (Nat.le_refl _) (Nat.le_refl _) ?_
    intro m hm
    cases hi : S.get i with
    | pub b =>
      cases hj : S.get j with
      | pub c => rw [hi, hj] at hm; cases hm
      | lab c => rw [hi, hj] at hm; cases hm; exact h.get hj
    | lab a =>
      cases hj : S.get j with
      | pub c => rw [hi, hj] at hm; cases hm; exact h.get hi
      | lab c =>
        rw [hi, hj] at hm
        simp only [symXor, Sym.lab.injEq] at hm
        rw [← hm]
        split
        · exact mask_one S
        · exact mask_xor (h.get hi) (h.get hj) (by assumption)
  | and i j =>
    show Valid (S.and (S.get i) (S.get j))
    cases hi : S.get i with
    | pub a =>
      cases hj : S.get j with
      | pub b => exact valid_push h rfl (Nat.le_refl _) (Nat.le_refl _) (Nat.le_refl _) (by rintro m ⟨⟩)
      | lab b =>
        refine valid_push h rfl (Nat.le_refl _) (Nat.le_refl _) (Nat.le_refl _) ?_
        intro m hm
        cases a
        · cases hm
        · cases hm; exact h.get hj
    | lab a =>
      cases hj : S.get j with
      | pub b =>
        refine valid_push h rfl (Nat.le_refl _) (Nat.le_refl _) (Nat.le_refl _) ?_
        intro m hm
        cases b
        · cases hm
        · cases hm; exact h.get hi
      | lab b =>
        refine valid_push h rfl (Nat.le_refl _) (Nat.le_refl _) (Nat.le_succ _) ?_
        rintro m ⟨⟩
        exact mask_bit (.inr (.inr (.inr ⟨by omega, by omega, by show _ < S.gid + 1; omega⟩)))

theorem valid_run : ∀ (ops : List Op) {S : Static}, Valid S → Valid (S.run ops)
  | [], _, h => h
  | op :: ops, _, h => valid_run ops (valid_next h op)

theorem valid_wiring (ops : List Op) : Valid (wiring ops) := valid_run ops fun _ h => by cases h

theorem slots_mem : ∀ (ops : List Op) (S : Static) (x : Nat × Block), x ∈ slots S ops → .lab x.1 ∈ (S.run ops).ws
  | [], _, _, h => by cases h
  | op :: ops, S, x, h => by
    rw [slots, List.mem_append] at h
    rcases h with h | h
    · refine run_mem ops (next_mem ?_)
      cases op with
      | and i j =>
        simp only [slotsOp] at h
        cases hi : S.get i with
        | pub a => rw [hi] at h; cases h
        | lab a =>
          cases hj : S.get j with
          | pub b => rw [hi, hj] at h; cases h
          | lab b =>
            rw [hi, hj] at h
            simp only [List.mem_cons, List.not_mem_nil, or_false] at h
            rcases h with rfl | rfl
            · exact get_mem hi
            · exact get_mem hj
      | _ => cases h
    · exact slots_mem ops _ x h

theorem slots_tweak : ∀ (ops : List Op) (S : Static) (s : Nat), s < (slots S ops).length →
    ((slots S ops).getD s (0, 0)).2 = GC.makeBlock (BitVec.ofNat 64 (2 * S.gid + s)) 0
  | [], _, _, h => by cases h
  | op :: ops, S, s, h => by
    have hl := slotsOp_length S op
    have ih := slots_tweak ops (S.next op)
    by_cases hs : s < (slotsOp S op).length
    · simp only [slots, List.getD_eq_getElem?_getD]
      rw [List.getElem?_append_left hs]
      cases op with
      | and i j =>
        revert hs
        simp only [slotsOp]
        cases S.get i <;> cases S.get j <;> simp only [List.length_nil, Nat.not_lt_zero, false_implies, List.length_cons]
        intro hs
        match s with
        | 0 => rfl
        | 1 => rfl
        | s + 2 => omega
      | _ => cases hs
    · have := ih (s - (slotsOp S op).length) (by rw [slots, List.length_append] at h; omega)
      simp only [slots, List.getD_eq_getElem?_getD] at this ⊢
      rw [List.getElem?_append_right (by omega), this]
      congr 2; omega

/-! ### The game -/

abbrev Var (NA NB n : Nat) := (Fin NA ⊕ Fin NB) ⊕ (Fin n ⊕ Fin n)

/-- A function, blocks and an offset. -/
abbrev Space (NA NB n : Nat) := (Block → Block) × (Var NA NB n → Block) × Block

/-- The drawn blocks: labels of the inputs, labels and hash values of the gates, rows. -/
def valsOf {NA NB n : Nat} (v : Var NA NB n → Block) : Vals where
  ra k := if h : k < NA then v (.inl (.inl ⟨k, h⟩)) else 0
  rb k := if h : k < NB then v (.inl (.inr ⟨k, h⟩)) else 0
  va s := if h : s < n then v (.inr (.inl ⟨s, h⟩)) else 0
  vt s := if h : s < n then v (.inr (.inr ⟨s, h⟩)) else 0

/-- Where a variable is drawn. -/
def place (NA NB n j : Nat) : Option (Var NA NB n) :=
  if j = 0 then none
  else if j % 3 = 1 then (if h : j / 3 < NA then some (.inl (.inl ⟨j / 3, h⟩)) else none)
  else if j % 3 = 2 then (if h : j / 3 < NB then some (.inl (.inr ⟨j / 3, h⟩)) else none)
  else if h : 2 * (j / 3 - 1) < n then some (.inr (.inl ⟨2 * (j / 3 - 1), h⟩)) else none

theorem var_place {NA NB n : Nat} (fix : Block) (v : Var NA NB n → Block) (j : Nat) :
    (valsOf v).var fix j = match place NA NB n j with
      | some x => v x
      | none => if j = 0 then fix else 0 := by
  simp only [Vals.var, place, valsOf]
  by_cases h0 : j = 0
  · simp [h0]
  · by_cases h1 : j % 3 = 1
    · by_cases h : j / 3 < NA <;> simp [h0, h1, h]
    · by_cases h2 : j % 3 = 2
      · by_cases h : j / 3 < NB <;> simp [h0, h2, h]
      · by_cases h : 2 * (j / 3 - 1) < n <;> simp [h0, h1, h2, h]

/-- The variable drawn there. -/
def index {NA NB n : Nat} : Var NA NB n → Nat
  | .inl (.inl k) => 3 * k + 1
  | .inl (.inr k) => 3 * k + 2
  | .inr (.inl s) => 3 * (s / 2) + 3
  | .inr (.inr _) => 0

theorem index_place {NA NB n j : Nat} {x : Var NA NB n} (h : place NA NB n j = some x) : index x = j := by
  simp only [place] at h
  split at h
  · cases h
  · split at h
    · split at h
      · cases h; simp only [index]; omega
      · cases h
    · split at h
      · split at h
        · cases h; simp only [index]; omega
        · cases h
      · split at h
        · cases h; simp only [index]; omega
        · cases h

theorem var_update {NA NB n j : Nat} {x : Var NA NB n} (h : place NA NB n j = some x) (fix : Block) (v : Var NA NB n → Block) (y : Block) :
    (valsOf (Function.update v x y)).var fix = Function.update ((valsOf v).var fix) j y := by
  funext k
  by_cases hk : k = j
  · subst hk
    rw [var_place, h, Function.update_self]
    exact Function.update_self _ _ _
  · rw [Function.update_of_ne hk, var_place, var_place]
    cases hx : place NA NB n k with
    | none => rfl
    | some z =>
      refine Function.update_of_ne ?_ _ _
      rintro rfl
      exact hk ((index_place hx).symm.trans (index_place h))

theorem place_known {S : Static} {NA NB n j : Nat} (h : Known S j) (hj : j ≠ 0) (h1 : S.ka = NA) (h2 : S.kb = NB) (h3 : 2 * S.gid = n) :
    ∃ x, place NA NB n j = some x := by
  subst h1; subst h2; subst h3
  simp only [place, if_neg hj]
  rcases h with h | ⟨a, b⟩ | ⟨a, b⟩ | ⟨a, b, c⟩
  · exact absurd h hj
  · exact ⟨_, by rw [if_pos a, dif_pos b]⟩
  · exact ⟨_, by rw [if_neg (by omega), if_pos a, dif_pos b]⟩
  · exact ⟨_, by rw [if_neg (by omega), if_neg (by omega), dif_pos (by omega)]⟩

/-- Changing a drawn block changes the sums it is in. -/
theorem sum_update_inj {NA NB n j m : Nat} {x : Var NA NB n} (h : place NA NB n j = some x) (hm : m.testBit j = true) (fix : Block) (v : Var NA NB n → Block)
    {y z : Block} (e : (valsOf (Function.update v x y)).sum fix m = (valsOf (Function.update v x z)).sum fix m) : y = z := by
  simp only [Vals.sum, var_update h] at e
  refine lin_update_inj _ List.nodup_range j ?_ _ hm _ y z e
  rw [List.mem_range]
  apply Decidable.byContradiction
  intro hn
  rw [testBit_big (by omega)] at hm
  cases hm

/-- A mask without variables is that of the fix point. -/
theorem mask_fix {m : Nat} (h : ∀ j, m.testBit j = true → j = 0) : m = 0 ∨ m = 1 := by
  cases h0 : m.testBit 0 with
  | false =>
    left
    apply Nat.eq_of_testBit_eq
    intro j
    rw [Nat.zero_testBit]
    cases hj : m.testBit j with
    | false => rfl
    | true => rw [h j hj, h0] at hj; cases hj
  | true =>
    right
    apply Nat.eq_of_testBit_eq
    intro j
    rw [show (1 : Nat) = 2 ^ 0 from rfl, Nat.testBit_two_pow]
    by_cases hj : j = 0
    · subst hj; rw [h0]; rfl
    · rw [decide_eq_false (Ne.symm hj)]
      cases hx : m.testBit j with
      | false => rfl
      | true => exact absurd (h j hx) hj

/-- What is used of the environment: `sigma` is linear and one-to-one, the fix point is not the block of a constant and not related to zero by a tweak. -/
structure Fair (E : Env) : Prop where
  lin : ∀ a b, E.sigma (a ^^^ b) = E.sigma a ^^^ E.sigma b
  inj : Function.Injective E.sigma
  fix : isPublic E.fixPoint = false
  tweak : ∀ u : BitVec 64, E.sigma E.fixPoint ≠ GC.makeBlock u 0

theorem Fair.zero {E : Env} (F : Fair E) : E.sigma 0 = 0 := by
  have := F.lin 0 0
  rw [show (0 : Block) ^^^ 0 = 0 from rfl, BitVec.xor_self] at this
  exact this

def setVar {NA NB n : Nat} (x : Var NA NB n) (g : Space NA NB n) (y : Block) : Space NA NB n := (g.1, Function.update g.2.1 x y, g.2.2)
def setOff {NA NB n : Nat} (g : Space NA NB n) (y : Block) : Space NA NB n := (g.1, g.2.1, y)

/-- A sum with a drawn block has a given value. -/
theorem card_sum {NA NB n j m : Nat} {x : Var NA NB n} (h : place NA NB n j = some x) (hm : m.testBit j = true) (fix : Block) (p : Block → Block → Prop)
    (hp : ∀ d a b, p d a → p d b → a = b) :
    Nat.card {g : Space NA NB n // p g.2.2 ((valsOf g.2.1).sum fix m)} * 2 ^ 128 ≤ 1 * Nat.card (Space NA NB n) := by
  rw [← card_block]
  refine resample (fun g => g.2.1 x) (setVar x) (fun g z => by simp [setVar]) (fun g z => by simp [setVar]) _ 1 fun g => card_one _ fun y z hy hz => ?_
  exact sum_update_inj h hm fix g.2.1 (hp _ _ _ hy hz)

/-- The offset has a given value. -/
theorem card_off {NA NB n : Nat} (c : Block) : Nat.card {g : Space NA NB n // setDelta g.2.2 = c} * 2 ^ 128 ≤ 2 * Nat.card (Space NA NB n) := by
  rw [← card_block]
  exact resample (fun g => g.2.2) setOff (fun g z => by simp [setOff]) (fun g z => by simp [setOff]) _ 2 fun g => card_offset _ fun y z hy hz => hy.trans hz.symm

theorem isPublic_iff (x : Block) : isPublic x = true ↔ x = zeroB ∨ x = oneB := by
  simp [isPublic, isZero, isOne]

theorem xor_eq {a b c : Block} (h : a ^^^ b = c) : a = c ^^^ b := by rw [← h, xc']

/-- Two sums of bounds. -/
theorem card_two {Ω : Type} [Finite Ω] {p q : Ω → Prop} {M a b N : Nat} (h1 : Nat.card {x // p x} * M ≤ a * N) (h2 : Nat.card {x // q x} * M ≤ b * N) :
    Nat.card {x // p x ∨ q x} * M ≤ (a + b) * N := by
  calc _ ≤ _ := Nat.mul_le_mul_right _ (card_or _ _)
    _ = _ := Nat.add_mul _ _ _
    _ ≤ _ := Nat.add_le_add h1 h2
    _ = _ := (Nat.add_mul _ _ _).symm

/-- A secret wire gets the block of a constant as one of its labels. -/
theorem card_label {E : Env} (F : Fair E) {S : Static} {NA NB n : Nat} (h1 : S.ka = NA) (h2 : S.kb = NB) (h3 : 2 * S.gid = n) {m : Nat} (hm : Mask S m) :
    Nat.card {g : Space NA NB n // ¬Clear (setDelta g.2.2) ((valsOf g.2.1).sum E.fixPoint m)} * 2 ^ 128 ≤ 4 * Nat.card (Space NA NB n) := by
  have hsplit : ∀ g : Space NA NB n, ¬Clear (setDelta g.2.2) ((valsOf g.2.1).sum E.fixPoint m) →
      (((valsOf g.2.1).sum E.fixPoint m = zeroB ∨ (valsOf g.2.1).sum E.fixPoint m = oneB)
        ∨ ((valsOf g.2.1).sum E.fixPoint m = zeroB ^^^ setDelta g.2.2 ∨ (valsOf g.2.1).sum E.fixPoint m = oneB ^^^ setDelta g.2.2)) := by
    intro g hg
    simp only [Clear, not_and_or, Bool.not_eq_false, isPublic_iff] at hg
    rcases hg with hg | hg | hg
    · exact .inl hg
    · exact .inr (.inl (xor_eq hg))
    · exact .inr (.inr (xor_eq hg))
  refine (Nat.mul_le_mul_right _ (card_mono hsplit)).trans ?_
  by_cases hv : ∃ j, j ≠ 0 ∧ m.testBit j = true
  · obtain ⟨j, hj, hb⟩ := hv
    obtain ⟨x, hx⟩ := place_known (hm.2 j hb) hj h1 h2 h3
    have one : ∀ c : Block → Block, Nat.card {g : Space NA NB n // (valsOf g.2.1).sum E.fixPoint m = c g.2.2} * 2 ^ 128 ≤ 1 * Nat.card (Space NA NB n) := fun c =>
      card_sum hx hb E.fixPoint (fun d a => a = c d) fun d a b ha hb => ha.trans hb.symm
    rw [show (4 : Nat) = 1 + 1 + (1 + 1) from rfl]
    exact card_two (card_two (one fun _ => zeroB) (one fun _ => oneB)) (card_two (one fun d => zeroB ^^^ setDelta d) (one fun d => oneB ^^^ setDelta d))
  · have hm1 : m = 1 := by
      rcases mask_fix (m := m) fun j hj => Decidable.byContradiction fun h => hv ⟨j, h, hj⟩ with h | h
      · exact absurd h hm.1
      · exact h
    subst hm1
    simp only [sum_fix]
    have hz : ∀ c, isPublic c = true → E.fixPoint ≠ c := by
      intro c hc e
      rw [← e, F.fix] at hc
      cases hc
    have none : ∀ c, isPublic c = true → Nat.card {_g : Space NA NB n // E.fixPoint = c} * 2 ^ 128 ≤ 0 * Nat.card (Space NA NB n) := by
      intro c hc
      rw [card_none _ fun _ => hz c hc]; simp
    have off : ∀ c, Nat.card {g : Space NA NB n // E.fixPoint = c ^^^ setDelta g.2.2} * 2 ^ 128 ≤ 2 * Nat.card (Space NA NB n) := by
      intro c
      have h : ∀ g : Space NA NB n, E.fixPoint = c ^^^ setDelta g.2.2 → setDelta g.2.2 = c ^^^ E.fixPoint := fun g hg => by rw [hg, xc]
      exact (Nat.mul_le_mul_right _ (card_mono h)).trans (card_off (c ^^^ E.fixPoint))
    rw [show (4 : Nat) = 0 + 0 + (2 + 2) from rfl]
    exact card_two (card_two (none zeroB (by decide)) (none oneB (by decide))) (card_two (off zeroB) (off oneB))

/-! ### Coincidences -/

/-- Mask and tweak number `s` of the program. -/
def slot (ops : List Op) (s : Nat) : Nat × Block := (slots {} ops).getD s (0, 0)

theorem wiring_slots (ops : List Op) : (slots {} ops).length = 2 * (wiring ops).gid := by
  have := slots_length ops {}
  rw [show ({} : Static).gid = 0 from rfl] at this
  simpa [wiring] using this

theorem slot_mem {ops : List Op} {s : Nat} (h : s < 2 * (wiring ops).gid) : slot ops s ∈ slots {} ops := by
  rw [← wiring_slots] at h
  simp [slot, h]

theorem slot_mask {ops : List Op} {s : Nat} (h : s < 2 * (wiring ops).gid) : Mask (wiring ops) (slot ops s).1 :=
  valid_wiring ops _ (slots_mem ops {} _ (slot_mem h))

theorem slot_tweak {ops : List Op} {s : Nat} (h : s < 2 * (wiring ops).gid) : (slot ops s).2 = GC.makeBlock (BitVec.ofNat 64 s) 0 := by
  rw [← wiring_slots] at h
  have := slots_tweak ops {} s h
  rw [show ({} : Static).gid = 0 from rfl, Nat.mul_zero, Nat.zero_add] at this
  exact this

/-- What fits the program. -/
structure Sized (ops : List Op) (NA NB n : Nat) : Prop where
  a : (wiring ops).ka = NA
  b : (wiring ops).kb = NB
  n : 2 * (wiring ops).gid = n

theorem makeBlock_zero {u : BitVec 64} (h : GC.makeBlock u 0 = 0) : u = 0 := by
  apply BitVec.eq_of_getLsbD_eq
  intro i hi
  have := congrArg (fun b => b.getLsbD (64 + i)) h
  simp only [GC.makeBlock, BitVec.getLsbD_append] at this
  simpa using this

/-- Two points of the evaluator coincide. -/
theorem card_same {E : Env} (F : Fair E) {ops : List Op} {NA NB n : Nat} (Z : Sized ops NA NB n) (h64 : n ≤ 2 ^ 64) {i j : Nat} (hi : i < n) (hj : j < n) (hij : i ≠ j) :
    Nat.card {g : Space NA NB n // ptA E (valsOf g.2.1) (slot ops i) = ptA E (valsOf g.2.1) (slot ops j)} * 2 ^ 128 ≤ 1 * Nat.card (Space NA NB n) := by
  have ti := slot_tweak (ops := ops) (s := i) (by rw [Z.n]; exact hi)
  have tj := slot_tweak (ops := ops) (s := j) (by rw [Z.n]; exact hj)
  have mi := slot_mask (ops := ops) (s := i) (by rw [Z.n]; exact hi)
  have mj := slot_mask (ops := ops) (s := j) (by rw [Z.n]; exact hj)
  have key : ∀ g : Space NA NB n, ptA E (valsOf g.2.1) (slot ops i) = ptA E (valsOf g.2.1) (slot ops j) →
      E.sigma ((valsOf g.2.1).sum E.fixPoint ((slot ops i).1 ^^^ (slot ops j).1)) = GC.makeBlock (BitVec.ofNat 64 i ^^^ BitVec.ofNat 64 j) 0 := by
    intro g h
    have := xor_move h
    rw [← F.lin, ← sum_xor, ti, tj, makeBlock_xor] at this
    exact this
  have hne := ofNat_ne h64 hi hj hij
  refine (Nat.mul_le_mul_right _ (card_mono key)).trans ?_
  by_cases hv : ∃ k, k ≠ 0 ∧ ((slot ops i).1 ^^^ (slot ops j).1).testBit k = true
  · obtain ⟨k, hk, hb⟩ := hv
    have hK : Known (wiring ops) k := by
      refine (mask_xor mi mj ?_).2 k hb
      intro h0
      rw [h0, Nat.zero_testBit] at hb
      cases hb
    obtain ⟨x, hx⟩ := place_known hK hk Z.a Z.b Z.n
    exact card_sum hx hb E.fixPoint (fun _ a => E.sigma a = GC.makeBlock (BitVec.ofNat 64 i ^^^ BitVec.ofNat 64 j) 0) fun d a b ha hb => F.inj (ha.trans hb.symm)
  · rw [card_none]
    · simp
    · intro g hg
      rcases mask_fix (m := (slot ops i).1 ^^^ (slot ops j).1) fun k hk => Decidable.byContradiction fun h => hv ⟨k, h, hk⟩ with h | h
      · rw [h, sum_zero, F.zero] at hg
        exact hne (makeBlock_zero hg.symm)
      · rw [h, sum_fix] at hg
        exact F.tweak _ hg

/-- A point depends on the offset. -/
theorem card_hit {E : Env} (F : Fair E) {NA NB n : Nat} (x : Nat × Block) (P : (Block → Block) × (Var NA NB n → Block) → Block → Prop)
    (hP : ∀ a b b', P a b → P a b' → b = b') :
    Nat.card {g : Space NA NB n // P (g.1, g.2.1) (ptH E (valsOf g.2.1) (setDelta g.2.2) x)} * 2 ^ 128 ≤ 2 * Nat.card (Space NA NB n) := by
  rw [← card_block]
  refine resample (fun g => g.2.2) setOff (fun g z => by simp [setOff]) (fun g z => by simp [setOff]) _ 2 fun g => card_offset _ fun y z hy hz => ?_
  have e := hP _ _ _ hy hz
  simp only [setOff, ptH, F.lin] at e
  have e' := congrArg (fun b => E.sigma ((valsOf g.2.1).sum E.fixPoint x.1) ^^^ (b ^^^ x.2)) e
  simp only [xc', xc] at e'
  exact F.inj e'

/-- The view of the evaluator. -/
abbrev View := Option (List Msg × List (List Bool) × Eva × List Msg × List Msg)

/-- The function as the evaluator knows it in the game: changed only at its own points. -/
noncomputable def known (E : Env) (ops : List Op) {NA NB n : Nat} (g : (Block → Block) × (Var NA NB n → Block)) : Block → Block :=
  Function.extend (fun s : Fin n => ptA E (valsOf g.2) (slot ops s)) (fun s : Fin n => (valsA E (valsOf g.2) {} ops).getD s 0) g.1

/-- The view of the evaluator in the game: it gets the rows and bits of `msgs` and computes with the labels drawn. -/
noncomputable def seen (E : Env) (ops : List Op) {NA NB n : Nat} (g : (Block → Block) × (Var NA NB n → Block)) : View :=
  match Eva.run (withAll E (known E ops g) (valsOf g.2).ra (valsOf g.2).rb) (valsOf g.2).rb E.cotR {} (ops.map blindA) (msgs E (valsOf g.2) {} [] ops) with
  | .error _ => none
  | .ok out => some (msgs E (valsOf g.2) {} [] ops, out)

/-- The points a distinguisher asks for in the game. -/
noncomputable def asks (E : Env) (ops : List Op) (D : View → Ask Bool) {NA NB n : Nat} (g : (Block → Block) × (Var NA NB n → Block)) : List Block :=
  (D (seen E ops g)).points (known E ops g)

/-- Masks of the secret wires. -/
def secrets (ops : List Op) : List Nat := (wiring ops).ws.filterMap fun
  | .pub _ => none
  | .lab m => some m

theorem mem_secrets {ops : List Op} {m : Nat} : m ∈ secrets ops ↔ .lab m ∈ (wiring ops).ws := by
  simp only [secrets, List.mem_filterMap]
  constructor
  · rintro ⟨x, h1, h2⟩
    cases x with
    | pub b => cases h2
    | lab a => cases h2; exact h1
  · exact fun h => ⟨_, h, rfl⟩

/-- A label is that of a constant. -/
def BadLabel (E : Env) {NA NB n : Nat} (m : Nat) (g : Space NA NB n) : Prop := ¬Clear (setDelta g.2.2) ((valsOf g.2.1).sum E.fixPoint m)

/-- Two points coincide. -/
def BadPair (E : Env) (ops : List Op) {NA NB n : Nat} (i j : Nat) (g : Space NA NB n) : Prop :=
  (i ≠ j ∧ ptA E (valsOf g.2.1) (slot ops i) = ptA E (valsOf g.2.1) (slot ops j)) ∨ ptH E (valsOf g.2.1) (setDelta g.2.2) (slot ops i) = ptA E (valsOf g.2.1) (slot ops j)

/-- The point of another label is asked for. -/
def BadAsk (E : Env) (ops : List Op) (D : View → Ask Bool) {NA NB n : Nat} (k i : Nat) (g : Space NA NB n) : Prop :=
  (asks E ops D (g.1, g.2.1))[k]? = some (ptH E (valsOf g.2.1) (setDelta g.2.2) (slot ops i))

/-- Labels or points coincide. -/
def Clash (E : Env) (ops : List Op) {NA NB n : Nat} (g : Space NA NB n) : Prop := (∃ m ∈ secrets ops, BadLabel E m g) ∨ ∃ x ∈ pairs n n, BadPair E ops x.1 x.2 g

def Bad (E : Env) (ops : List Op) (D : View → Ask Bool) (q : Nat) {NA NB n : Nat} (g : Space NA NB n) : Prop :=
  Clash E ops g ∨ ∃ x ∈ pairs q n, BadAsk E ops D x.1 x.2 g

theorem card_clash {E : Env} (F : Fair E) {ops : List Op} {NA NB n : Nat} (Z : Sized ops NA NB n) (h64 : n ≤ 2 ^ 64) :
    Nat.card {g : Space NA NB n // Clash E ops g} * 2 ^ 128 ≤ ((secrets ops).length * 4 + n * n * 3) * Nat.card (Space NA NB n) := by
  have h0 : Nat.card {g : Space NA NB n // ∃ m ∈ secrets ops, BadLabel E m g} * 2 ^ 128 ≤ (secrets ops).length * (4 * Nat.card (Space NA NB n)) := by
    apply card_exists
    intro m hm
    exact card_label F Z.a Z.b Z.n (valid_wiring ops m (mem_secrets.1 hm))
  have h1 : Nat.card {g : Space NA NB n // ∃ x ∈ pairs n n, BadPair E ops x.1 x.2 g} * 2 ^ 128 ≤ (pairs n n).length * (3 * Nat.card (Space NA NB n)) := by
    apply card_exists
    rintro ⟨i, j⟩ hx
    rw [mem_pairs] at hx
    have a : Nat.card {g : Space NA NB n // i ≠ j ∧ ptA E (valsOf g.2.1) (slot ops i) = ptA E (valsOf g.2.1) (slot ops j)} * 2 ^ 128 ≤ 1 * Nat.card (Space NA NB n) := by
      by_cases hij : i = j
      · rw [card_none _ fun g h => h.1 hij]; simp
      · exact (Nat.mul_le_mul_right _ (card_mono fun g h => h.2)).trans (card_same F Z h64 hx.1 hx.2 hij)
    have b := card_hit F (NA := NA) (NB := NB) (n := n) (slot ops i) (fun a b => b = ptA E (valsOf a.2) (slot ops j)) fun a b b' h h' => h.trans h'.symm
    exact card_two a b
  rw [length_pairs, ← Nat.mul_assoc] at h1
  rw [← Nat.mul_assoc] at h0
  exact card_two h0 h1

/-- The point of another label is at a given place of a list that does not depend on the offset. -/
theorem card_asks {E : Env} (F : Fair E) {ops : List Op} {NA NB n : Nat} (A : (Block → Block) × (Var NA NB n → Block) → List Block) (q : Nat) :
    Nat.card {g : Space NA NB n // ∃ x ∈ pairs q n, (A (g.1, g.2.1))[x.1]? = some (ptH E (valsOf g.2.1) (setDelta g.2.2) (slot ops x.2))} * 2 ^ 128
      ≤ q * n * 2 * Nat.card (Space NA NB n) := by
  have h2 : Nat.card {g : Space NA NB n // ∃ x ∈ pairs q n, (A (g.1, g.2.1))[x.1]? = some (ptH E (valsOf g.2.1) (setDelta g.2.2) (slot ops x.2))} * 2 ^ 128
      ≤ (pairs q n).length * (2 * Nat.card (Space NA NB n)) := by
    apply card_exists
    rintro ⟨k, i⟩ _
    exact card_hit F (NA := NA) (NB := NB) (n := n) (slot ops i) (fun a b => (A a)[k]? = some b) fun a b b' h h' => Option.some.inj (h.symm.trans h')
  rw [length_pairs, ← Nat.mul_assoc] at h2
  exact h2

theorem card_bad {E : Env} (F : Fair E) {ops : List Op} {NA NB n : Nat} (Z : Sized ops NA NB n) (h64 : n ≤ 2 ^ 64) (D : View → Ask Bool) (q : Nat) :
    Nat.card {g : Space NA NB n // Bad E ops D q g} * 2 ^ 128 ≤ ((secrets ops).length * 4 + n * n * 3 + q * n * 2) * Nat.card (Space NA NB n) :=
  card_two (card_clash F Z h64) (card_asks F (asks E ops D) q)

/-! ### From the game to the garbler -/

/-- What is drawn: a function, labels of the inputs of ALICE, blocks of the correlated OTs, an offset. -/
abbrev Draw (NA NB : Nat) := (Block → Block) × (Fin NA ⊕ Fin NB → Block) × Block

/-- The environment of a draw. -/
def envOf (E : Env) {NA NB : Nat} (r : Draw NA NB) : Env :=
  withAll E r.1 (fun k => if h : k < NA then r.2.1 (.inl ⟨k, h⟩) else E.prg k) (fun k => if h : k < NB then r.2.1 (.inr ⟨k, h⟩) else E.cotK k)

/-- The points of the hash in the game, first those of the evaluator, then the others. -/
def pt (E : Env) (ops : List Op) {NA NB n : Nat} (v : Var NA NB n → Block) (d : Block) : Fin n ⊕ Fin n → Block
  | .inl s => ptA E (valsOf v) (slot ops s)
  | .inr s => ptH E (valsOf v) (setDelta d) (slot ops s)

/-- The function at these points. -/
def val (E : Env) (ops : List Op) {NA NB n : Nat} (v : Var NA NB n → Block) (d : Block) : Fin n ⊕ Fin n → Block
  | .inl s => (valsA E (valsOf v) {} ops).getD s 0
  | .inr s => (valsH E (valsOf v) (setDelta d) {} [] ops).getD s 0

/-- The draw that gives what was drawn in the game; the old values of the function at the points go where nothing is looked at. -/
noncomputable def toReal (E : Env) (ops : List Op) {NA NB n : Nat} (g : Space NA NB n) : Draw NA NB × (Fin n ⊕ Fin n → Block) :=
  ((Function.extend (pt E ops g.2.1 g.2.2) (val E ops g.2.1 g.2.2) g.1,
    Sum.elim (fun k => g.2.1 (.inl (.inl k))) (fun k => g.2.1 (.inl (.inr k)) ^^^ sel (E.cotR k) (setDelta g.2.2)), g.2.2), g.1 ∘ pt E ops g.2.1 g.2.2)

theorem fits_toReal {E : Env} {ops : List Op} {NA NB n : Nat} (Z : Sized ops NA NB n) (g : Space NA NB n) (hp : Function.Injective (pt E ops g.2.1 g.2.2)) :
    Fits E (toReal E ops g).1.1 (envOf E (toReal E ops g).1).prg (envOf E (toReal E ops g).1).cotK (valsOf g.2.1) (setDelta g.2.2) {} [] ops := by
  have hl := wiring_slots ops
  rw [Z.n] at hl
  refine fits_lists ops {} [] ?_ ?_ ?_ ?_
  · apply List.ext_getElem
    · rw [List.length_map, valsA_length]
    · intro s h1 h2
      rw [List.length_map, hl] at h1
      have := hp.extend_apply (val E ops g.2.1 g.2.2) g.1 (.inl ⟨s, h1⟩)
      have e : pt E ops g.2.1 g.2.2 (.inl ⟨s, h1⟩) = ptA E (valsOf g.2.1) ((slots {} ops)[s]'(by rw [hl]; exact h1)) := by
        simp [pt, slot, hl, h1]
      rw [e] at this
      rw [List.getElem_map]
      refine this.trans ?_
      simp [val, valsA_length, hl, h1]
  · apply List.ext_getElem
    · rw [List.length_map, valsH_length]
    · intro s h1 h2
      rw [List.length_map, hl] at h1
      have := hp.extend_apply (val E ops g.2.1 g.2.2) g.1 (.inr ⟨s, h1⟩)
      have e : pt E ops g.2.1 g.2.2 (.inr ⟨s, h1⟩) = ptH E (valsOf g.2.1) (setDelta g.2.2) ((slots {} ops)[s]'(by rw [hl]; exact h1)) := by
        simp [pt, slot, hl, h1]
      rw [e] at this
      rw [List.getElem_map]
      refine this.trans ?_
      simp [val, valsH_length, hl, h1]
  · intro k hk
    have hk : k < NA := by rw [← Z.a]; exact hk
    simp [envOf, withAll, toReal, valsOf, hk]
  · intro k hk
    have hk : k < NB := by rw [← Z.b]; exact hk
    simp [envOf, withAll, toReal, valsOf, hk]

theorem slots_eq {ops : List Op} {n : Nat} (hn : 2 * (wiring ops).gid = n) : slots {} ops = (List.range n).map (slot ops) := by
  have hl := wiring_slots ops
  rw [hn] at hl
  apply List.ext_getElem
  · simp [hl]
  · intro i h1 h2
    simp [slot, h1]

theorem start_sim (E : Env) (V : Vals) (d : Block) : Sim E V (start d) {} [] := ⟨start_clear d, rfl, rfl, rfl, rfl⟩

theorem calm_toReal {E : Env} {ops : List Op} {NA NB n : Nat} {g : Space NA NB n} (h : ¬Clash E ops g) :
    Calm E (valsOf g.2.1) (setDelta g.2.2) (wiring ops) := by
  intro m hm
  apply Classical.byContradiction
  intro hc
  exact h (.inl ⟨m, mem_secrets.2 hm, hc⟩)

theorem pt_injective {E : Env} (F : Fair E) {ops : List Op} {NA NB n : Nat} {g : Space NA NB n} (h : ¬Clash E ops g) :
    Function.Injective (pt E ops g.2.1 g.2.2) := by
  have hp : ∀ i j, i < n → j < n → ¬BadPair E ops i j g := fun i j hi hj hb => h (.inr ⟨(i, j), mem_pairs.2 ⟨hi, hj⟩, hb⟩)
  have ha : ∀ i j : Fin n, ptA E (valsOf g.2.1) (slot ops i) = ptA E (valsOf g.2.1) (slot ops j) → i = j := by
    intro i j e
    apply Fin.ext
    apply Decidable.byContradiction
    intro hn
    exact hp i j i.2 j.2 (.inl ⟨hn, e⟩)
  intro x y e
  rcases x with i | i <;> rcases y with j | j
  · rw [ha i j e]
  · exact absurd (.inr e.symm) (hp j i j.2 i.2)
  · exact absurd (.inr e) (hp i j i.2 j.2)
  · simp only [pt, ptH, F.lin] at e
    have r : ∀ a b c : Block, a ^^^ b ^^^ c ^^^ b = a ^^^ c := by
      intro a b c
      rw [show a ^^^ b ^^^ c ^^^ b = a ^^^ c ^^^ b ^^^ b by ac_rfl, xc']
    have e' := congrArg (· ^^^ E.sigma (setDelta g.2.2)) e
    simp only [r] at e'
    rw [ha i j e']

/-- The function of the draw where no other label is asked for. -/
theorem known_same {E : Env} {ops : List Op} {NA NB n : Nat} {g : Space NA NB n} (hp : Function.Injective (pt E ops g.2.1 g.2.2)) {x : Block}
    (hx : ¬∃ s : Fin n, pt E ops g.2.1 g.2.2 (.inr s) = x) : (toReal E ops g).1.1 x = known E ops (g.1, g.2.1) x := by
  have hpa : Function.Injective (fun s : Fin n => ptA E (valsOf g.2.1) (slot ops s)) := fun a b e => Sum.inl_injective (@hp (.inl a) (.inl b) e)
  by_cases ha : ∃ s : Fin n, pt E ops g.2.1 g.2.2 (.inl s) = x
  · obtain ⟨s, rfl⟩ := ha
    have := hpa.extend_apply (fun s : Fin n => (valsA E (valsOf g.2.1) {} ops).getD s 0) g.1 s
    exact (hp.extend_apply _ _ (.inl s)).trans this.symm
  · refine (Function.extend_apply' _ _ _ ?_).trans (Function.extend_apply' _ _ _ ha).symm
    rintro ⟨s | s, hs⟩
    · exact ha ⟨s, hs⟩
    · exact hx ⟨s, hs⟩

/-- The real run with the draw made in the game. -/
theorem real_toReal {E : Env} (F : Fair E) {ops : List Op} {NA NB n : Nat} (Z : Sized ops NA NB n) {g : Space NA NB n} (h : ¬Clash E ops g) :
    AllApart (envOf E (toReal E ops g).1) (start g.2.2) ops
      ∧ asked (envOf E (toReal E ops g).1) (start g.2.2) ops = (slots {} ops).map (ptA E (valsOf g.2.1))
      ∧ EvaluatorView.hidden (envOf E (toReal E ops g).1) (start g.2.2) ops = (slots {} ops).map (ptH E (valsOf g.2.1) (setDelta g.2.2))
      ∧ view (envOf E (toReal E ops g).1) g.2.2 ops = seen E ops (g.1, g.2.1)
      ∧ ∃ m, (start g.2.2).recordEva (envOf E (toReal E ops g).1) ops = .ok (msgs E (valsOf g.2.1) {} [] ops, m)
        ∧ m.eva.wires = (wiring ops).ws.map ((valsOf g.2.1).sym E.fixPoint) := by
  have hp := pt_injective F h
  have hl := wiring_slots ops
  rw [Z.n] at hl
  have hP : ∀ x ∈ slots {} ops, known E ops (g.1, g.2.1) (ptA E (valsOf g.2.1) x) = (toReal E ops g).1.1 (ptA E (valsOf g.2.1) x) := by
    intro x hx
    refine (known_same hp ?_).symm
    rintro ⟨s, hs⟩
    rw [slots_eq Z.n, List.mem_map] at hx
    obtain ⟨i, h1, rfl⟩ := hx
    rw [List.mem_range] at h1
    have := @hp (.inr s) (.inl ⟨i, h1⟩) hs
    cases this
  obtain ⟨r1, r2, r3, m, out, r4, r5, r6, r7⟩ := sim_run ops (start g.2.2) {} [] (start_sim E _ _) (calm_toReal h) (fits_toReal Z g hp) hP
  refine ⟨r1, r2, r3, ?_, m, r4, r5⟩
  have r4' : (start g.2.2).recordEva (envOf E (toReal E ops g).1) ops = .ok (msgs E (valsOf g.2.1) {} [] ops, m) := r4
  have r6' : (start g.2.2).eva.run (envOf E (toReal E ops g).1) (cotM (envOf E (toReal E ops g).1) (setDelta g.2.2)) (envOf E (toReal E ops g).1).cotR (ops.map blindA)
    (msgs E (valsOf g.2.1) {} [] ops) = .ok out := r6
  simp only [view, seen, r4', r6']
  rw [show Eva.run _ _ _ {} (ops.map blindA) (msgs E (valsOf g.2.1) {} [] ops) = .ok out from r7]

/-! ### Different draws of the game give different draws -/

theorem gate_mem : ∀ (ops : List Op) (S : Static) (g : Nat), S.gid ≤ g → g < (S.run ops).gid → .lab (2 ^ (3 * g + 3)) ∈ (S.run ops).ws
  | [], S, g, h1, h2 => by exact absurd h2 (by show ¬g < S.gid; omega)
  | op :: ops, S, g, h1, h2 => by
    by_cases hg : (S.next op).gid ≤ g
    · exact gate_mem ops (S.next op) g hg h2
    · refine run_mem ops ?_
      cases op with
      | and i j =>
        revert hg
        simp only [Static.next]
        cases S.get i <;> cases S.get j <;> simp only [Static.and, Static.push] <;> intro hg
        · omega
        · omega
        · omega
        · have : g = S.gid := by omega
          subst this; simp
      | _ => exact absurd h1 hg

theorem msgsOp_length (E : Env) (V V' : Vals) (S : Static) (w : List Bool) (op : Op) : (msgsOp E V S w op).length = (msgsOp E V' S w op).length := by
  cases op with
  | and i j => simp only [msgsOp]; cases S.get i <;> cases S.get j <;> rfl
  | reveal p ws =>
    simp only [msgsOp]
    split
    · rfl
    · simp only [List.length_flatMap]
      congr 1
      apply List.map_congr_left
      intro i _
      cases S.get i <;> rfl
  | _ => rfl

/-- Rows and hash values can be read off. -/
theorem read_off {E : Env} {V V' : Vals} : ∀ (ops : List Op) (S : Static) (w : List Bool), msgs E V S w ops = msgs E V' S w ops → valsA E V S ops = valsA E V' S ops →
    ∀ g, S.gid ≤ g → g < (S.run ops).gid → V.vt (2 * g) = V'.vt (2 * g) ∧ V.vt (2 * g + 1) = V'.vt (2 * g + 1) ∧ V.va (2 * g + 1) = V'.va (2 * g + 1)
  | [], S, w, _, _, g, h1, h2 => by exact absurd h2 (by show ¬g < S.gid; omega)
  | op :: ops, S, w, hm, hv, g, h1, h2 => by
    rw [msgs, msgs] at hm
    rw [valsA, valsA] at hv
    obtain ⟨a1, a2⟩ := List.append_inj hm (msgsOp_length E V V' S w op)
    obtain ⟨b1, b2⟩ := List.append_inj hv (by rw [valsAOp_length, valsAOp_length])
    by_cases hg : (S.next op).gid ≤ g
    · exact read_off ops (S.next op) _ a2 b2 g hg h2
    · cases op with
      | and i j =>
        revert hg a1 b1
        simp only [Static.next, msgsOp, valsAOp]
        cases S.get i <;> cases S.get j <;> simp only [Static.and, Static.push] <;> intro a1 b1 hg
        · omega
        · omega
        · omega
        · have : g = S.gid := by omega
          subst this
          simp only [List.cons.injEq, Msg.blk.injEq, and_true] at a1 b1
          exact ⟨a1.1, a1.2, b1.2⟩
      | _ => exact absurd h1 hg

theorem toReal_inj {E : Env} (F : Fair E) {ops : List Op} {NA NB n : Nat} (Z : Sized ops NA NB n) {g g' : Space NA NB n}
    (hb : ¬Clash E ops g) (hb' : ¬Clash E ops g') (h : toReal E ops g = toReal E ops g') : g = g' := by
  have hp := pt_injective F hb
  have hp' := pt_injective F hb'
  obtain ⟨-, -, -, -, m, r1, r2⟩ := real_toReal F Z hb
  obtain ⟨-, -, -, -, m', r1', r2'⟩ := real_toReal F Z hb'
  have hf := fits_toReal Z g hp
  have hf' := fits_toReal Z g' hp'
  obtain ⟨P, v, d⟩ := g
  obtain ⟨P', v', d'⟩ := g'
  have hd : d = d' := congrArg (fun x => x.1.2.2) h
  subst hd
  rw [← h] at r1'
  simp only at r1 r1' r2 r2' hp hp'
  rw [r1] at r1'
  simp only [Except.ok.injEq, Prod.mk.injEq] at r1'
  obtain ⟨hm, rfl⟩ := r1'
  rw [r2] at r2'
  have ha : ∀ k, v (.inl (.inl k)) = v' (.inl (.inl k)) := fun k => congrFun (congrArg (fun x => x.1.2.1) h) (.inl k)
  have hbb : ∀ k, v (.inl (.inr k)) = v' (.inl (.inr k)) := fun k => by
    have := congrFun (congrArg (fun x => x.1.2.1) h) (.inr k)
    have := congrArg (· ^^^ sel (E.cotR k) (setDelta d)) this
    simpa only [toReal, Sum.elim_inr, xc'] using this
  have hev : ∀ k, k < (wiring ops).gid → (valsOf v).va (2 * k) = (valsOf v').va (2 * k) := by
    intro k hk
    have hmem := gate_mem ops {} k (Nat.zero_le _) hk
    have : ∀ x ∈ (wiring ops).ws, (valsOf v).sym E.fixPoint x = (valsOf v').sym E.fixPoint x := by
      intro x hx
      exact List.map_inj_left.1 r2' x hx
    have := this _ hmem
    simp only [Vals.sym, sum_g] at this
    exact this
  have hvar : ∀ j, (valsOf v).var E.fixPoint j = (valsOf v').var E.fixPoint j := by
    intro j
    simp only [Vals.var]
    split
    · rfl
    · split
      · simp only [valsOf, ha]
      · split
        · simp only [valsOf, hbb]
        · by_cases hk : j / 3 - 1 < (wiring ops).gid
          · exact hev _ hk
          · have : ¬2 * (j / 3 - 1) < n := by rw [← Z.n]; omega
            simp only [valsOf, this, dif_neg, not_false_eq_true]
  have hsum : (valsOf v).sum E.fixPoint = (valsOf v').sum E.fixPoint := by
    funext m
    rw [Vals.sum, Vals.sum, funext hvar]
  have hA : ptA E (valsOf v) = ptA E (valsOf v') := by funext x; rw [ptA, ptA, hsum]
  have hH : ptH E (valsOf v) (setDelta d) = ptH E (valsOf v') (setDelta d) := by funext x; rw [ptH, ptH, hsum]
  have hpt : pt E ops v d = pt E ops v' d := by
    funext x
    cases x with
    | inl s => exact congrFun hA _
    | inr s => exact congrFun hH _
  have hval : valsA E (valsOf v) {} ops = valsA E (valsOf v') {} ops := by
    have l : (valsA E (valsOf v) {} ops).length = n := by rw [valsA_length, wiring_slots, Z.n]
    have l' : (valsA E (valsOf v') {} ops).length = n := by rw [valsA_length, wiring_slots, Z.n]
    apply List.ext_getElem
    · rw [l, l']
    · intro s h1 h2
      have hs : s < n := by rw [← l]; exact h1
      have e1 := hp.extend_apply (val E ops v d) P (.inl ⟨s, hs⟩)
      have e2 := hp'.extend_apply (val E ops v' d) P' (.inl ⟨s, hs⟩)
      have e3 : Function.extend (pt E ops v d) (val E ops v d) P = Function.extend (pt E ops v' d) (val E ops v' d) P' := congrArg (fun x => x.1.1) h
      rw [e3, hpt, e2] at e1
      simpa [val, h1, h2] using e1.symm
  have hread := read_off ops {} [] hm hval
  have hv : v = v' := by
    funext x
    have hlt : ∀ s, s < n → s / 2 < (wiring ops).gid := by
      intro s hs
      rw [← Z.n] at hs; omega
    match x with
    | .inl (.inl k) => exact ha k
    | .inl (.inr k) => exact hbb k
    | .inr (.inl ⟨s, hs⟩) =>
      rcases Nat.even_or_odd' s with ⟨k, rfl | rfl⟩
      · have := hev k (by have := hlt _ hs; omega)
        simpa [valsOf, hs] using this
      · have := (hread k (Nat.zero_le _) (by have := hlt _ hs; show k < (wiring ops).gid; omega)).2.2
        simpa [valsOf, hs] using this
    | .inr (.inr ⟨s, hs⟩) =>
      rcases Nat.even_or_odd' s with ⟨k, rfl | rfl⟩
      · have := (hread k (Nat.zero_le _) (by have := hlt _ hs; show k < (wiring ops).gid; omega)).1
        simpa [valsOf, hs] using this
      · have := (hread k (Nat.zero_le _) (by have := hlt _ hs; show k < (wiring ops).gid; omega)).2.1
        simpa [valsOf, hs] using this
  subst hv
  have hP : P = P' := by
    have e3 : Function.extend (pt E ops v d) (val E ops v d) P = Function.extend (pt E ops v d) (val E ops v d) P' := congrArg (fun x => x.1.1) h
    have e4 : P ∘ pt E ops v d = P' ∘ pt E ops v d := congrArg (fun x => x.2) h
    rw [← extend_back hp (val E ops v d) P, ← extend_back hp (val E ops v d) P', e3, e4]
  rw [hP]

end Verif.Props.BackendBound
