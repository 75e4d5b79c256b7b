import Verif.Props.EvaluatorBound

/-!
The count for C67: in the game of `EvaluatorBound` two points of the hash coincide, or the evaluator asks for the sum of a label and the offset, only for a small part of
what can be drawn.
-/

namespace Verif.Props.EvaluatorBound
open Verif.Model Verif.Model.GC Verif.Lemmas Verif.Lemmas.Sampling
open Verif.Spec.Circuit (Party Op)
open Verif.Spec
open Verif.Props (SameShape)
open Verif.Props.EvaluatorView (blindA toBob Ask entry)
open Verif.Props.EvaluatorViewOnline

/-! ### The labels as sums of what is drawn -/

noncomputable def vars (N n : Nat) : List (Var N n) := Finset.univ.toList

/-- Constants and drawn blocks are summed. -/
def Affine (E : Env) {N n : Nat} (L : (Var N n → Block) → Block) : Prop :=
  ∃ (e0 e1 : Bool) (c : Var N n → Bool), ∀ v, L v = sel e0 E.const0 ^^^ sel e1 E.const1 ^^^ lin (vars N n) c v

theorem affine_zero (E : Env) {N n : Nat} : Affine E (fun _ : Var N n → Block => (0 : Block)) :=
  ⟨false, false, fun _ => false, fun v => by rw [lin_none _ _ _ fun _ _ => rfl]; simp [sel]⟩

theorem affine_const (E : Env) {N n : Nat} (b : Bool) : Affine E (fun _ : Var N n → Block => evaConst E b) := by
  cases b
  · exact ⟨true, false, fun _ => false, fun v => by rw [lin_none _ _ _ fun _ _ => rfl]; simp [sel, evaConst]⟩
  · exact ⟨false, true, fun _ => false, fun v => by rw [lin_none _ _ _ fun _ _ => rfl]; simp [sel, evaConst]⟩

theorem affine_var (E : Env) {N n : Nat} (x : Var N n) : Affine E (fun v => v x) :=
  ⟨false, false, fun y => decide (y = x), fun v => by rw [lin_single (vars N n) (Finset.nodup_toList _) x (by simp [vars])]; simp [sel]⟩

theorem affine_xor {E : Env} {N n : Nat} {L M : (Var N n → Block) → Block} (h : Affine E L) (k : Affine E M) : Affine E (fun v => L v ^^^ M v) := by
  obtain ⟨a, b, c, h⟩ := h
  obtain ⟨a', b', c', k⟩ := k
  refine ⟨a != a', b != b', fun x => c x != c' x, fun v => ?_⟩
  simp only
  rw [h, k, sel_bne, sel_bne, lin_bne]; ac_rfl

theorem affine_ra (E : Env) {N n : Nat} (k : Nat) : Affine E (fun v : Var N n → Block => raOf v k) := by
  by_cases h : k < N
  · simp only [raOf, h, dite_true]; exact affine_var E _
  · simp only [raOf, h, dite_false]; exact affine_zero E

theorem affine_va (E : Env) {N n : Nat} (k : Nat) : Affine E (fun v : Var N n → Block => vaOf v k) := by
  by_cases h : k < n
  · simp only [vaOf, h, dite_true]; exact affine_var E _
  · simp only [vaOf, h, dite_false]; exact affine_zero E

/-- The labels held are such sums, on wires that do not depend on what is drawn. -/
structure Summed (E : Env) {N n : Nat} (S : (Var N n → Block) → Held) (len gid k : Nat) : Prop where
  len : ∀ v, (S v).ws.length = len
  gid : ∀ v, (S v).gid = gid
  k : ∀ v, (S v).k = k
  get : ∀ i, Affine E fun v => (S v).get E i

theorem Summed.push {E : Env} {N n : Nat} {S T : (Var N n → Block) → Held} {len gid k gid' k' : Nat} {x : (Var N n → Block) → Block} (h : Summed E S len gid k)
    (hx : Affine E x) (hw : ∀ v, (T v).ws = (S v).ws ++ [x v]) (hg : ∀ v, (T v).gid = gid') (hk : ∀ v, (T v).k = k') : Summed E T (len + 1) gid' k' := by
  refine ⟨fun v => by simp [hw, h.len], hg, hk, fun i => ?_⟩
  by_cases h1 : i < len
  · have : (fun v => (T v).get E i) = fun v => (S v).get E i := by
      funext v
      have hl := h.len v
      simp [Held.get, hw, List.getD_eq_getElem?_getD, List.getElem?_append_left (by omega : i < (S v).ws.length)]
    rw [this]; exact h.get i
  · by_cases h2 : i = len
    · have : (fun v => (T v).get E i) = x := by
        funext v
        have hl := h.len v
        subst h2
        simp [Held.get, hw, List.getD_eq_getElem?_getD, ← hl]
      rw [this]; exact hx
    · have : (fun v => (T v).get E i) = fun _ => evaConst E false := by
        funext v
        have hl := h.len v
        simp only [Held.get, hw]
        rw [List.getD_eq_default _ _ (by simp; omega)]
      rw [this]; exact affine_const E false

theorem Summed.next {E : Env} {N n : Nat} {S : (Var N n → Block) → Held} {len gid k : Nat} (h : Summed E S len gid k) (op : Op) :
    ∃ len' gid' k', Summed E (fun v => (S v).next E (raOf v) (evens (vaOf v)) op) len' gid' k' := by
  cases op with
  | pub b => exact ⟨_, _, _, h.push (affine_const E b) (fun _ => rfl) h.gid h.k⟩
  | inA b => exact ⟨_, _, k + 1, h.push (affine_ra E k) (fun v => by simp [Held.next, Held.push, h.k]) h.gid (fun v => by simp [Held.next, Held.push, h.k])⟩
  | inB b => exact ⟨_, _, k + 1, h.push (affine_ra E k) (fun v => by simp [Held.next, Held.push, h.k]) h.gid (fun v => by simp [Held.next, Held.push, h.k])⟩
  | and i j => exact ⟨_, gid + 1, _, h.push (affine_va E (2 * gid)) (fun v => by simp [Held.next, Held.push, h.gid, evens]) (fun v => by simp [Held.next, Held.push, h.gid]) h.k⟩
  | xor i j => exact ⟨_, _, _, h.push (affine_xor (h.get i) (h.get j)) (fun _ => rfl) h.gid h.k⟩
  | not i => exact ⟨_, _, _, h.push (h.get i) (fun _ => rfl) h.gid h.k⟩
  | reveal p ws => exact ⟨len, gid, k, h⟩

theorem slots_affine {E : Env} {N n : Nat} : ∀ (ops : List Op) (S : (Var N n → Block) → Held) (len gid k : Nat), Summed E S len gid k → ∀ s,
    Affine E fun v => ((slots E (raOf v) (evens (vaOf v)) (S v) ops).getD s (0, 0)).1 := by
  intro ops
  induction ops with
  | nil => intro S _ _ _ _ s; exact affine_zero E
  | cons op ops ih =>
    intro S len gid k h s
    obtain ⟨len', gid', k', h'⟩ := h.next op
    have := ih _ _ _ _ h'
    cases op with
    | and i j =>
      match s with
      | 0 => exact h.get i
      | 1 => exact h.get j
      | s + 2 => exact this s
    | _ => exact this s

theorem slot_affine (E : Env) (ops : List Op) (N n : Nat) (s : Nat) : Affine E fun v : Var N n → Block => (slotOf E ops v s).1 :=
  slots_affine ops (fun _ => {}) 0 0 0 ⟨fun _ => rfl, fun _ => rfl, fun _ => rfl, fun _ => affine_const E false⟩ s

theorem slots_tweak (E : Env) (ra W : Nat → Block) : ∀ (ops : List Op) (S : Held) (s : Nat), s < 2 * ands ops →
    ((slots E ra W S ops).getD s (0, 0)).2 = GC.makeBlock (BitVec.ofNat 64 (2 * S.gid + s)) 0 := by
  intro ops
  induction ops with
  | nil => intro S s h; simp [ands] at h
  | cons op ops ih =>
    intro S s h
    cases op with
    | and i j =>
      match s with
      | 0 => rfl
      | 1 => rfl
      | s + 2 =>
        simp only [ands] at h
        have := ih (S.next E ra W (.and i j)) s (by omega)
        simp only [Held.next, Held.push] at this
        simp only [slots, slotsOp, List.cons_append, List.nil_append, List.getD_cons_succ, Held.next, Held.push]
        rw [this]
        congr 2; omega
    | _ => exact ih _ s h

theorem slot_tweak (E : Env) (ops : List Op) {N n : Nat} (v : Var N n → Block) {s : Nat} (h : s < 2 * ands ops) : (slotOf E ops v s).2 = GC.makeBlock (BitVec.ofNat 64 s) 0 := by
  have := slots_tweak E (raOf v) (evens (vaOf v)) ops {} s h
  rw [Nat.mul_zero, Nat.zero_add] at this
  exact this

theorem makeBlock_xor (a b : BitVec 64) : GC.makeBlock a 0 ^^^ GC.makeBlock b 0 = GC.makeBlock (a ^^^ b) 0 := by
  apply BitVec.eq_of_getLsbD_eq
  intro i _
  simp only [GC.makeBlock, BitVec.getLsbD_xor, BitVec.getLsbD_append]
  split <;> simp

/-! ### Coincidences -/

/-- What is used of the environment: `sigma` is linear and one-to-one, and the constants are not related by a tweak. -/
structure Fair (E : Env) : Prop where
  lin : ∀ a b, E.sigma (a ^^^ b) = E.sigma a ^^^ E.sigma b
  inj : Function.Injective E.sigma
  const : ∀ (e0 e1 : Bool) (u : BitVec 64), u ≠ 0 → E.sigma (sel e0 E.const0 ^^^ sel e1 E.const1) ≠ GC.makeBlock u 0

def setVar {N n : Nat} (x : Var N n) (g : Space N n) (y : Block) : Space N n := (g.1, Function.update g.2.1 x y, g.2.2)
def setOff {N n : Nat} (g : Space N n) (y : Block) : Space N n := (g.1, g.2.1, y)

theorem xor_move {a b s t : Block} (h : a ^^^ s = b ^^^ t) : a ^^^ b = s ^^^ t := by
  have : a ^^^ s ^^^ (b ^^^ s) = b ^^^ t ^^^ (b ^^^ s) := by rw [h]
  have e1 : a ^^^ s ^^^ (b ^^^ s) = a ^^^ b ^^^ (s ^^^ s) := by ac_rfl
  have e2 : b ^^^ t ^^^ (b ^^^ s) = s ^^^ t ^^^ (b ^^^ b) := by ac_rfl
  rw [e1, e2, BitVec.xor_self, BitVec.xor_self] at this
  simpa using this

theorem ofNat_ne {n i j : Nat} (hn : n ≤ 2 ^ 64) (hi : i < n) (hj : j < n) (h : i ≠ j) : BitVec.ofNat 64 i ^^^ BitVec.ofNat 64 j ≠ 0 := by
  intro e
  have : BitVec.ofNat 64 i = BitVec.ofNat 64 j := by
    have := congrArg (· ^^^ BitVec.ofNat 64 j) e
    simpa [BitVec.xor_assoc] using this
  have := congrArg BitVec.toNat this
  simp only [BitVec.toNat_ofNat] at this
  rw [Nat.mod_eq_of_lt (by omega), Nat.mod_eq_of_lt (by omega)] at this
  exact h this

/-- Two points of the evaluator coincide. -/
theorem card_same {E : Env} (F : Fair E) {ops : List Op} {N n : Nat} (hn : n = 2 * ands ops) (h64 : n ≤ 2 ^ 64) {i j : Nat} (hi : i < n) (hj : j < n) (hij : i ≠ j) :
    Nat.card {g : Space N n // ptA E (slotOf E ops g.2.1 i) = ptA E (slotOf E ops g.2.1 j)} * 2 ^ 128 ≤ 1 * Nat.card (Space N n) := by
  obtain ⟨e0, e1, c, hL⟩ := affine_xor (slot_affine E ops N n i) (slot_affine E ops N n j)
  simp only at hL
  have key : ∀ v : Var N n → Block, ptA E (slotOf E ops v i) = ptA E (slotOf E ops v j) →
      E.sigma (sel e0 E.const0 ^^^ sel e1 E.const1 ^^^ lin (vars N n) c v) = GC.makeBlock (BitVec.ofNat 64 i ^^^ BitVec.ofNat 64 j) 0 := by
    intro v h
    have := xor_move h
    rw [← F.lin, hL, slot_tweak E ops v (by omega), slot_tweak E ops v (by omega), makeBlock_xor] at this
    exact this
  by_cases hc : ∃ x, c x = true
  · obtain ⟨x, hx⟩ := hc
    rw [← card_block]
    refine resample (fun g => g.2.1 x) (setVar x) (fun g z => by simp [setVar]) (fun g z => by simp [setVar]) _ 1 fun g => card_one _ fun y z hy hz => ?_
    have e := F.inj ((key _ hy).trans (key _ hz).symm)
    simp only [setVar] at e
    have e' := congrArg (sel e0 E.const0 ^^^ sel e1 E.const1 ^^^ ·) e
    simp only [xc] at e'
    exact lin_update_inj _ (Finset.nodup_toList _) x (by simp) c hx _ y z e'
  · rw [card_none]
    · simp
    · intro g hg
      have := key _ hg
      rw [lin_none _ _ _ fun x _ => by simpa using fun h => hc ⟨x, h⟩] at this
      rw [show sel e0 E.const0 ^^^ sel e1 E.const1 ^^^ (0 : Block) = sel e0 E.const0 ^^^ sel e1 E.const1 from BitVec.xor_zero] at this
      exact F.const e0 e1 _ (ofNat_ne h64 hi hj hij) this

theorem setDelta_bits {d d' : Block} (h : setDelta d = setDelta d') (h0 : lsb d = lsb d') : d = d' := by
  apply BitVec.eq_of_getLsbD_eq
  intro i hi
  by_cases hz : i = 0
  · subst hz; exact h0
  · have := congrArg (fun b => b.getLsbD i) h
    have hb : (GC.makeBlock 0 1).getLsbD i = false := by
      simp only [GC.makeBlock, BitVec.getLsbD_append]
      split
      · simp [hz]
      · simp
    simpa only [setDelta, BitVec.getLsbD_or, hb, Bool.false_or] using this

/-- An equation for the offset leaves two values of the block it is made from. -/
theorem card_offset (p : Block → Prop) (h : ∀ x y, p x → p y → setDelta x = setDelta y) : Nat.card {x // p x} ≤ 2 := by
  have hi : Function.Injective (fun x : {x // p x} => lsb x.1) := fun a b e => Subtype.ext (setDelta_bits (h _ _ a.2 b.2) e)
  have := Nat.card_le_card_of_injective _ hi
  simpa using this

/-- A point depends on the offset. -/
theorem card_hit {E : Env} (F : Fair E) {N n : Nat} (x : (Block → Block) × (Var N n → Block) → Block × Block) (P : (Block → Block) × (Var N n → Block) → Block → Prop)
    (hP : ∀ a b b', P a b → P a b' → b = b') :
    Nat.card {g : Space N n // P (g.1, g.2.1) (ptH E (setDelta g.2.2) (x (g.1, g.2.1)))} * 2 ^ 128 ≤ 2 * Nat.card (Space N n) := by
  rw [← card_block]
  refine resample (fun g => g.2.2) setOff (fun g z => by simp [setOff]) (fun g z => by simp [setOff]) _ 2 fun g => card_offset _ fun y z hy hz => ?_
  have e := hP _ _ _ hy hz
  simp only [setOff, ptH, F.lin] at e
  have e' := congrArg (fun b => E.sigma (x (g.1, g.2.1)).1 ^^^ (b ^^^ (x (g.1, g.2.1)).2)) e
  simp only [xc', xc] at e'
  exact F.inj e'

/-! ### Questions of the distinguisher -/

/-- The view of the evaluator. -/
abbrev View := Option (OffEva × List Msg × List Msg × List (List Bool) × OnEva × List Msg × List Msg)

/-- The function as the evaluator knows it in the game: changed only at its own points. -/
noncomputable def known (E : Env) (ops : List Op) {N n : Nat} (g : (Block → Block) × (Var N n → Block)) : Block → Block :=
  Function.extend (fun s : Fin n => ptA E (slotOf E ops g.2 s)) (fun s : Fin n => (valsA E (raOf g.2) (vaOf g.2) (vtOf g.2) {} ops).getD s 0) g.1

/-- The points a distinguisher asks for in the game. -/
noncomputable def asks (E : Env) (ops : List Op) (D : View → Ask Bool) {N n : Nat} (g : (Block → Block) × (Var N n → Block)) : List Block :=
  (D (some (seen E (raOf g.2) (evens (vaOf g.2)) (vtOf g.2) ops))).points (known E ops g)

theorem points_same {α : Type} {P P' : Block → Block} (H : Block → Prop) (h : ∀ x, ¬H x → P x = P' x) (t : Ask α) (ht : ∀ x ∈ t.points P', ¬H x) :
    t.points P = t.points P' := by
  induction t with
  | done a => rfl
  | ask x k ih =>
    have hx := h x (ht x List.mem_cons_self)
    simp only [Ask.points, hx]
    rw [ih (P' x) fun y hy => ht y (List.mem_cons_of_mem _ hy)]

/-- Two points coincide, or the point of another label is asked for. -/
def BadPair (E : Env) (ops : List Op) {N n : Nat} (i j : Nat) (g : Space N n) : Prop :=
  (i ≠ j ∧ ptA E (slotOf E ops g.2.1 i) = ptA E (slotOf E ops g.2.1 j)) ∨ ptH E (setDelta g.2.2) (slotOf E ops g.2.1 i) = ptA E (slotOf E ops g.2.1 j)

def BadAsk (E : Env) (ops : List Op) (D : View → Ask Bool) {N n : Nat} (k i : Nat) (g : Space N n) : Prop :=
  (asks E ops D (g.1, g.2.1))[k]? = some (ptH E (setDelta g.2.2) (slotOf E ops g.2.1 i))

def pairs (a b : Nat) : List (Nat × Nat) := (List.range a).flatMap fun i => (List.range b).map fun j => (i, j)

theorem mem_pairs {a b i j : Nat} : (i, j) ∈ pairs a b ↔ i < a ∧ j < b := by
  simp [pairs]

theorem length_pairs (a b : Nat) : (pairs a b).length = a * b := by
  induction a with
  | zero => simp [pairs]
  | succ a ih =>
    simp only [pairs] at ih ⊢
    rw [List.range_succ, List.flatMap_append, List.length_append, ih]
    simp [Nat.add_mul]

def Coincide (E : Env) (ops : List Op) {N n : Nat} (g : Space N n) : Prop := ∃ x ∈ pairs n n, BadPair E ops x.1 x.2 g

def Bad (E : Env) (ops : List Op) (D : View → Ask Bool) (q : Nat) {N n : Nat} (g : Space N n) : Prop :=
  Coincide E ops g ∨ ∃ x ∈ pairs q n, BadAsk E ops D x.1 x.2 g

theorem card_coincide {E : Env} (F : Fair E) {ops : List Op} {N n : Nat} (hn : n = 2 * ands ops) (h64 : n ≤ 2 ^ 64) :
    Nat.card {g : Space N n // Coincide E ops g} * 2 ^ 128 ≤ 3 * (n * n) * Nat.card (Space N n) := by
  have h1 : Nat.card {g : Space N n // ∃ x ∈ pairs n n, BadPair E ops x.1 x.2 g} * 2 ^ 128 ≤ (pairs n n).length * (3 * Nat.card (Space N n)) := by
    apply card_exists
    rintro ⟨i, j⟩ hx
    rw [mem_pairs] at hx
    have a : Nat.card {g : Space N n // i ≠ j ∧ ptA E (slotOf E ops g.2.1 i) = ptA E (slotOf E ops g.2.1 j)} * 2 ^ 128 ≤ 1 * Nat.card (Space N n) := by
      by_cases hij : i = j
      · rw [card_none _ fun g h => h.1 hij]; simp
      · exact (Nat.mul_le_mul_right _ (card_mono fun g h => h.2)).trans (card_same F hn h64 hx.1 hx.2 hij)
    have b := card_hit F (N := N) (n := n) (fun a => slotOf E ops a.2 i) (fun a b => b = ptA E (slotOf E ops a.2 j)) fun a b b' h h' => h.trans h'.symm
    have c := card_or (fun g : Space N n => i ≠ j ∧ ptA E (slotOf E ops g.2.1 i) = ptA E (slotOf E ops g.2.1 j))
      fun g => ptH E (setDelta g.2.2) (slotOf E ops g.2.1 i) = ptA E (slotOf E ops g.2.1 j)
    calc _ ≤ _ := Nat.mul_le_mul_right _ c
      _ = _ := Nat.add_mul _ _ _
      _ ≤ 1 * Nat.card (Space N n) + 2 * Nat.card (Space N n) := Nat.add_le_add a b
      _ = 3 * Nat.card (Space N n) := by rw [← Nat.add_mul]
  rw [length_pairs, ← Nat.mul_assoc, Nat.mul_comm (n * n) 3] at h1
  exact h1

/-- The point of another label is at a given place of a list that does not depend on the offset. -/
theorem card_asks {E : Env} (F : Fair E) {ops : List Op} {N n : Nat} (A : (Block → Block) × (Var N n → Block) → List Block) (q : Nat) :
    Nat.card {g : Space N n // ∃ x ∈ pairs q n, (A (g.1, g.2.1))[x.1]? = some (ptH E (setDelta g.2.2) (slotOf E ops g.2.1 x.2))} * 2 ^ 128
      ≤ 2 * (q * n) * Nat.card (Space N n) := by
  have h2 : Nat.card {g : Space N n // ∃ x ∈ pairs q n, (A (g.1, g.2.1))[x.1]? = some (ptH E (setDelta g.2.2) (slotOf E ops g.2.1 x.2))} * 2 ^ 128
      ≤ (pairs q n).length * (2 * Nat.card (Space N n)) := by
    apply card_exists
    rintro ⟨k, i⟩ _
    exact card_hit F (N := N) (n := n) (fun a => slotOf E ops a.2 i) (fun a b => (A a)[k]? = some b) fun a b b' h h' => Option.some.inj (h.symm.trans h')
  rw [length_pairs, ← Nat.mul_assoc, Nat.mul_comm (q * n) 2] at h2
  exact h2

theorem card_bad {E : Env} (F : Fair E) {ops : List Op} {N n : Nat} (hn : n = 2 * ands ops) (h64 : n ≤ 2 ^ 64) (D : View → Ask Bool) (q : Nat) :
    Nat.card {g : Space N n // Bad E ops D q g} * 2 ^ 128 ≤ (3 * (n * n) + 2 * (q * n)) * Nat.card (Space N n) := by
  calc _ ≤ _ := Nat.mul_le_mul_right _ (card_or _ _)
    _ = _ := Nat.add_mul _ _ _
    _ ≤ _ := Nat.add_le_add (card_coincide F hn h64) (card_asks F (asks E ops D) q)
    _ = _ := (Nat.add_mul _ _ _).symm

/-! ### From the game to the garbler -/

theorem pt_injective {E : Env} (F : Fair E) {ops : List Op} {N n : Nat} {g : Space N n} (h : ¬Coincide E ops g) :
    Function.Injective (pt E ops g.2.1 g.2.2) := by
  have hp : ∀ i j, i < n → j < n → ¬BadPair E ops i j g := fun i j hi hj hb => h ⟨(i, j), mem_pairs.2 ⟨hi, hj⟩, hb⟩
  have ha : ∀ i j : Fin n, ptA E (slotOf E ops g.2.1 i) = ptA E (slotOf E ops g.2.1 j) → i = j := by
    intro i j e
    apply Fin.ext
    apply Decidable.byContradiction
    intro hn
    exact hp i j i.2 j.2 (.inl ⟨hn, e⟩)
  intro x y e
  rcases x with i | i <;> rcases y with j | j
  · rw [ha i j e]
  · exact absurd (.inr e.symm) (hp j i j.2 i.2)
  · exact absurd (.inr e) (hp i j i.2 j.2)
  · simp only [pt, ptH, F.lin] at e
    have : ptA E (slotOf E ops g.2.1 i) = ptA E (slotOf E ops g.2.1 j) := by
      have e' : E.sigma (slotOf E ops g.2.1 i).1 ^^^ E.sigma (setDelta g.2.2) ^^^ (slotOf E ops g.2.1 i).2 ^^^ E.sigma (setDelta g.2.2)
        = E.sigma (slotOf E ops g.2.1 j).1 ^^^ E.sigma (setDelta g.2.2) ^^^ (slotOf E ops g.2.1 j).2 ^^^ E.sigma (setDelta g.2.2) := by rw [e]
      have r : ∀ a b c : Block, a ^^^ b ^^^ c ^^^ b = a ^^^ c := by
        intro a b c
        rw [show a ^^^ b ^^^ c ^^^ b = a ^^^ c ^^^ b ^^^ b by ac_rfl, xc']
      rw [r, r] at e'
      exact e'
    rw [ha i j this]

/-- Away from the other points the garbler's function is the one known in the game. -/
theorem toReal_known {E : Env} {ops : List Op} {N n : Nat} {g : Space N n} (hp : Function.Injective (pt E ops g.2.1 g.2.2)) :
    ∀ x, (¬∃ s : Fin n, pt E ops g.2.1 g.2.2 (.inr s) = x) → (toReal E ops g).1 x = known E ops (g.1, g.2.1) x := by
  intro x hx
  have hpa : Function.Injective (fun s : Fin n => ptA E (slotOf E ops g.2.1 s)) := fun a b e => Sum.inl_injective (@hp (.inl a) (.inl b) e)
  by_cases ha : ∃ s : Fin n, pt E ops g.2.1 g.2.2 (.inl s) = x
  · obtain ⟨s, rfl⟩ := ha
    have := hpa.extend_apply (fun s : Fin n => (valsA E (raOf g.2.1) (vaOf g.2.1) (vtOf g.2.1) {} ops).getD s 0) g.1 s
    exact (hp.extend_apply _ _ (.inl s)).trans this.symm
  · refine (Function.extend_apply' _ _ _ ?_).trans (Function.extend_apply' _ _ _ ha).symm
    rintro ⟨s | s, hs⟩
    · exact ha ⟨s, hs⟩
    · exact hx ⟨s, hs⟩

/-- No coincidence, and no question for a point of another label. -/
def Safe (E : Env) (ops₀ ops : List Op) (D : View → Ask Bool) (E' : Env) (d : Block) : Prop :=
  Good E' d ops ∧ ∀ x ∈ (D (view E' d ops₀ ops)).points E'.perm, ∀ L t, E.sigma L ^^^ t ∈ asked E' (start d) [] ops → x ≠ E.sigma (L ^^^ setDelta d) ^^^ t

theorem slots_eq (E : Env) (ops : List Op) {N n : Nat} (hn : n = 2 * ands ops) (v : Var N n → Block) :
    slotsOf E ops v = (List.range n).map (slotOf E ops v) := by
  apply List.ext_getElem
  · rw [slotsOf, slots_length, List.length_map, List.length_range, hn]
  · intro i h1 h2
    simp [slotOf, h1]

theorem safe_toReal {E : Env} (F : Fair E) {ops₀ ops : List Op} {N n : Nat} (hn : n = 2 * ands ops) (hN : N = (allInputs ops).length)
    (hs : List.Forall₂ SameShape ops₀ ops) {D : View → Ask Bool} {q : Nat} (hq : ∀ v P, ((D v).points P).length ≤ q) {g : Space N n} (h : ¬Bad E ops D q g) :
    Safe E ops₀ ops D (real E (toReal E ops g)) (toReal E ops g).2.2 := by
  have hp := pt_injective F fun hc => h (.inl hc)
  obtain ⟨f, -, r2, -, -, r5, r6⟩ := real_toReal hn hN hs g hp
  rw [slots_eq E ops hn] at r5 r6
  have hH : ∀ x, x ∈ EvaluatorViewOnline.hidden (real E (toReal E ops g)) (start g.2.2) [] ops ↔ ∃ s : Fin n, pt E ops g.2.1 g.2.2 (.inr s) = x := by
    intro x
    rw [r6]
    simp only [List.map_map, List.mem_map, List.mem_range, Function.comp]
    exact ⟨fun ⟨s, h1, h2⟩ => ⟨⟨s, h1⟩, h2⟩, fun ⟨s, h2⟩ => ⟨s, s.2, h2⟩⟩
  have hA : ∀ x, x ∈ asked (real E (toReal E ops g)) (start g.2.2) [] ops ↔ ∃ s : Fin n, pt E ops g.2.1 g.2.2 (.inl s) = x := by
    intro x
    rw [r5]
    simp only [List.map_map, List.mem_map, List.mem_range, Function.comp]
    exact ⟨fun ⟨s, h1, h2⟩ => ⟨⟨s, h1⟩, h2⟩, fun ⟨s, h2⟩ => ⟨s, s.2, h2⟩⟩
  refine ⟨⟨?_, ?_⟩, ?_⟩
  · show (EvaluatorViewOnline.hidden (real E (toReal E ops g)) (start g.2.2) [] ops).Nodup
    rw [r6, List.map_map]
    refine List.Nodup.map_on ?_ List.nodup_range
    intro i hi j hj e
    have := @hp (.inr ⟨i, List.mem_range.1 hi⟩) (.inr ⟨j, List.mem_range.1 hj⟩) e
    simpa using this
  · intro x hx hy
    obtain ⟨s, h1⟩ := (hH x).1 hx
    obtain ⟨s', h2⟩ := (hA x).1 hy
    have := hp (h1.trans h2.symm)
    cases this
  · have hnot : ∀ x ∈ asks E ops D (g.1, g.2.1), ¬∃ s : Fin n, pt E ops g.2.1 g.2.2 (.inr s) = x := by
      rintro x hx ⟨s, hs⟩
      obtain ⟨k, hk, e⟩ := List.mem_iff_getElem.1 hx
      have hkq : k < q := Nat.lt_of_lt_of_le hk (hq _ _)
      refine h (.inr ⟨(k, s), mem_pairs.2 ⟨hkq, s.2⟩, ?_⟩)
      show (asks E ops D (g.1, g.2.1))[k]? = some (pt E ops g.2.1 g.2.2 (.inr s))
      rw [hs, ← e]; simp
    have hsame := toReal_known hp
    have hpts := points_same _ hsame _ hnot
    intro x hx L t hL e
    rw [show view (real E (toReal E ops g)) (toReal E ops g).2.2 ops₀ ops = _ from r2] at hx
    have hx' : x ∈ asks E ops D (g.1, g.2.1) := by
      rw [asks, ← hpts]; exact hx
    obtain ⟨s, h1⟩ := (hA _).1 hL
    refine hnot x hx' ⟨s, ?_⟩
    simp only [pt, ptA, ptH, F.lin] at h1 ⊢
    rw [e, F.lin]
    show E.sigma _ ^^^ E.sigma (setDelta g.2.2) ^^^ _ = E.sigma L ^^^ E.sigma (setDelta g.2.2) ^^^ t
    rw [show ∀ a b c : Block, a ^^^ b ^^^ c = a ^^^ c ^^^ b from fun a b c => by ac_rfl, h1]
    ac_rfl

/-- What the garbler draws: a function, labels of the inputs, an offset. -/
abbrev Draw (N : Nat) := (Block → Block) × (Fin N → Block) × Block

def envOf (E : Env) {N : Nat} (r : Draw N) : Env := draw E (r.1, r.2.1)

/-- The draw without the blocks nothing looks at. -/
def forget (N n : Nat) : Space N n ≃ Draw N × (Fin n ⊕ Fin n → Block) where
  toFun g := ((g.1, fun k => g.2.1 (.inl k), g.2.2), fun x => g.2.1 (.inr x))
  invFun a := (a.1.1, Sum.elim a.1.2.1 a.2, a.1.2.2)
  left_inv g := by
    obtain ⟨P, v, d⟩ := g
    simp only [Prod.mk.injEq, true_and, and_true]
    funext x
    cases x <;> rfl
  right_inv a := rfl

/-- A draw of the garbler is bad only as often as the draws of the game it comes from. -/
theorem transfer {E : Env} (F : Fair E) {ops : List Op} {N n : Nat} (hn : n = 2 * ands ops) (hN : N = (allInputs ops).length) (B : Space N n → Prop) (R : Draw N → Prop)
    (hB : ∀ g, Coincide E ops g → B g) (hR : ∀ g, ¬B g → ¬R (forget N n (toReal E ops g)).1) (c : Nat)
    (hc : Nat.card {g : Space N n // B g} * 2 ^ 128 ≤ c * Nat.card (Space N n)) : Nat.card {r : Draw N // R r} * 2 ^ 128 ≤ c * Nat.card (Draw N) := by
  have h2 : Nat.card {g : Space N n // ¬B g} ≤ Nat.card {g : Space N n // ¬R (forget N n g).1} :=
    Nat.card_le_card_of_injective (fun g : {g : Space N n // ¬B g} => (⟨toReal E ops g.1, hR g.1 g.2⟩ : {g : Space N n // ¬R (forget N n g).1}))
      fun a b e => Subtype.ext (toReal_inj hn hN _ _ (pt_injective F fun h => a.2 (hB _ h)) (pt_injective F fun h => b.2 (hB _ h)) (congrArg (fun x => x.1) e))
  have h3 := card_split (fun g : Space N n => B g)
  have h4 := card_split (fun g : Space N n => R (forget N n g).1)
  have h5 : Nat.card {g : Space N n // R (forget N n g).1} ≤ Nat.card {g : Space N n // B g} := by omega
  have h6 : Nat.card {g : Space N n // R (forget N n g).1} = Nat.card {r : Draw N // R r} * Nat.card (Fin n ⊕ Fin n → Block) := by
    rw [← Nat.card_prod]
    refine Nat.card_congr ⟨fun g => (⟨(forget N n g.1).1, g.2⟩, (forget N n g.1).2), fun a => ⟨(forget N n).symm (a.1.1, a.2), a.1.2⟩, fun g => ?_, fun a => rfl⟩
    exact Subtype.ext ((forget N n).left_inv g.1)
  have h7 : Nat.card (Space N n) = Nat.card (Draw N) * Nat.card (Fin n ⊕ Fin n → Block) := by
    rw [Nat.card_congr (forget N n), Nat.card_prod]
  have hK : 0 < Nat.card (Fin n ⊕ Fin n → Block) := Nat.card_pos
  have h8 : Nat.card {r : Draw N // R r} * 2 ^ 128 * Nat.card (Fin n ⊕ Fin n → Block) ≤ c * Nat.card (Draw N) * Nat.card (Fin n ⊕ Fin n → Block) := by
    calc _ = Nat.card {g : Space N n // R (forget N n g).1} * 2 ^ 128 := by rw [h6, Nat.mul_right_comm]
      _ ≤ _ := Nat.mul_le_mul_right _ h5
      _ ≤ _ := hc
      _ = _ := by rw [h7, Nat.mul_assoc]
  exact Nat.le_of_mul_le_mul_right h8 hK

theorem twice_twice (a q : Nat) : 3 * (2 * a * (2 * a)) + 2 * (q * (2 * a)) = 12 * (a * a) + 4 * (q * a) := by
  have e1 : 2 * a * (2 * a) = 4 * (a * a) := by rw [Nat.mul_mul_mul_comm]
  have e2 : q * (2 * a) = 2 * (q * a) := Nat.mul_left_comm _ _ _
  rw [e1, e2]; omega

/-- How many draws are not safe. -/
theorem card_exposed {E : Env} (F : Fair E) {ops₀ ops : List Op} {N : Nat} (h63 : ands ops ≤ 2 ^ 63) (hN : N = (allInputs ops).length)
    (hs : List.Forall₂ SameShape ops₀ ops) (D : View → Ask Bool) (q : Nat) (hq : ∀ v P, ((D v).points P).length ≤ q) :
    Nat.card {r : Draw N // ¬Safe E ops₀ ops D (envOf E r) r.2.2} * 2 ^ 128 ≤ (12 * (ands ops * ands ops) + 4 * (q * ands ops)) * Nat.card (Draw N) := by
  rw [← twice_twice]
  exact transfer F rfl hN (Bad E ops D q) _ (fun g h => .inl h) (fun g h => not_not_intro (safe_toReal F rfl hN hs hq h)) _ (card_bad F rfl (by omega) D q)

/-- **C67, coincidences.**  Whatever both parties feed: of all functions under the hash, labels of the inputs and offsets only the part `12 A² / 2^128` gives a run in which
two points of the hash coincide, for `A` AND gates. -/
theorem C67_coincidence {E : Env} (F : Fair E) (ops : List Op) (h63 : ands ops ≤ 2 ^ 63) {N : Nat} (hN : N = (allInputs ops).length) :
    Nat.card {r : Draw N // ¬Good (envOf E r) r.2.2 ops} * 2 ^ 128 ≤ 12 * (ands ops * ands ops) * Nat.card (Draw N) := by
  have h := card_exposed F h63 hN (List.forall₂_same.2 fun op _ => shape_refl op) (fun _ => .done false) 0 (fun _ _ => Nat.le_refl 0)
  rw [Nat.zero_mul, Nat.mul_zero, Nat.add_zero] at h
  refine (Nat.mul_le_mul_right _ (card_mono ?_)).trans h
  exact fun r hr hs => hr hs.1

/-- **C67.**  A distinguisher gets everything the evaluator stores, gets, holds, outputs and sends in both phases, and may ask for `q` more values of the function under the hash.
With the one input of ALICE it says yes in at most the part `(12 A² + 4 A q) / 2^128` of all cases more often than with the other, if both open the same values to BOB. -/
theorem C67_advantage {E : Env} (F : Fair E) (ops₀ ops ops' : List Op) (hs : List.Forall₂ SameShape ops₀ ops) (hb : ops.map blindA = ops'.map blindA)
    (ho : toBob (Circuit.opened [] ops) = toBob (Circuit.opened [] ops')) (h63 : ands ops ≤ 2 ^ 63) {N : Nat} (hN : N = (allInputs ops).length)
    (D : View → Ask Bool) (q : Nat) (hq : ∀ v P, ((D v).points P).length ≤ q) :
    Nat.card {r : Draw N // (D (view (envOf E r) r.2.2 ops₀ ops)).run r.1 = true} * 2 ^ 128
      ≤ Nat.card {r : Draw N // (D (view (envOf E r) r.2.2 ops₀ ops')).run r.1 = true} * 2 ^ 128
        + (12 * (ands ops * ands ops) + 4 * (q * ands ops)) * Nat.card (Draw N) := by
  have hu := card_exposed F h63 hN hs D q hq
  have hl' : (allInputs ops').length = N := by rw [hN, allInputs_length hb]
  have hd : ∀ (r : Draw N), other (envOf E r) r.2.2 ops ops'
      = envOf E (repair (envOf E r) r.2.2 ops ops', (fun k : Fin N => relabel (envOf E r) r.2.2 ops ops' k), r.2.2) := fun r =>
    draw_other E r.2.2 (r.1, r.2.1) ops ops' (by omega) (by omega)
  have h1 : Nat.card {r : Draw N // (D (view (envOf E r) r.2.2 ops₀ ops)).run r.1 = true ∧ Safe E ops₀ ops D (envOf E r) r.2.2}
      ≤ Nat.card {r : Draw N // (D (view (envOf E r) r.2.2 ops₀ ops')).run r.1 = true} := by
    refine Nat.card_le_card_of_injective (fun r : {r : Draw N // (D (view (envOf E r) r.2.2 ops₀ ops)).run r.1 = true ∧ Safe E ops₀ ops D (envOf E r) r.2.2} =>
      (⟨(repair (envOf E r.1) r.1.2.2 ops ops', (fun k : Fin N => relabel (envOf E r.1) r.1.2.2 ops ops' k), r.1.2.2), ?_⟩ :
        {r : Draw N // (D (view (envOf E r) r.2.2 ops₀ ops')).run r.1 = true})) ?_
    · have := C62_online_distinguisher (envOf E r.1) r.1.2.2 ops₀ ops ops' hs hb ho r.2.2.1 D r.2.2.2
      rw [hd] at this
      exact this.trans r.2.1
    · rintro ⟨r, r1, r2⟩ ⟨r', r1', r2'⟩ e
      simp only [Subtype.mk.injEq, Prod.mk.injEq] at e
      obtain ⟨e1, e2, e3⟩ := e
      obtain ⟨-, -, -, k4, k5⟩ := C62_online_private (envOf E r) r.2.2 ops₀ ops ops' hs hb ho r2.1
      obtain ⟨-, -, -, k4', k5'⟩ := C62_online_private (envOf E r') r'.2.2 ops₀ ops ops' hs hb ho r2'.1
      rw [hd] at k4 k5 k4' k5'
      rw [e1, e2, e3] at k4 k5
      have p1 : r.1 = r'.1 := k4.symm.trans k4'
      have p2 : (envOf E r).prg = (envOf E r').prg := k5.symm.trans k5'
      have p3 : r.2.1 = r'.2.1 := by
        funext k
        have := congrFun p2 k
        simpa [envOf, draw, withBoth] using this
      exact Subtype.ext (Prod.ext p1 (Prod.ext p3 e3))
  have h2 : Nat.card {r : Draw N // (D (view (envOf E r) r.2.2 ops₀ ops)).run r.1 = true}
      ≤ Nat.card {r : Draw N // (D (view (envOf E r) r.2.2 ops₀ ops)).run r.1 = true ∧ Safe E ops₀ ops D (envOf E r) r.2.2}
        + Nat.card {r : Draw N // ¬Safe E ops₀ ops D (envOf E r) r.2.2} :=
    (card_mono fun r hr => (Classical.em (Safe E ops₀ ops D (envOf E r) r.2.2)).elim (fun h => .inl ⟨hr, h⟩) .inr).trans (card_or _ _)
  calc _ ≤ _ := Nat.mul_le_mul_right _ (h2.trans (Nat.add_le_add_right h1 _))
    _ = _ := Nat.add_mul _ _ _
    _ ≤ _ := Nat.add_le_add_left hu _

/-! ### A case -/

/-- `sigma` of emp-tool: the halves are exchanged, the new upper one is added to the lower one. -/
def swap (b : Block) : Block := (b.extractLsb' 64 64 ^^^ b.extractLsb' 0 64) ++ b.extractLsb' 64 64

theorem swap_lin (a b : Block) : swap (a ^^^ b) = swap a ^^^ swap b := by
  apply BitVec.eq_of_getLsbD_eq
  intro i hi
  simp only [swap, BitVec.getLsbD_append, BitVec.getLsbD_xor, BitVec.getLsbD_extractLsb']
  split
  · simp [*]
  · have : i - 64 < 64 := by omega
    simp only [this, decide_true, Bool.true_and]
    cases a.getLsbD (64 + (i - 64)) <;> cases b.getLsbD (64 + (i - 64)) <;> cases a.getLsbD (0 + (i - 64)) <;> cases b.getLsbD (0 + (i - 64)) <;> rfl

theorem swap_zero {a : Block} (h : swap a = 0) : a = 0 := by
  apply BitVec.eq_of_getLsbD_eq
  have hb : ∀ i, (swap a).getLsbD i = false := fun i => by rw [h]; simp
  have hhi : ∀ i, i < 64 → a.getLsbD (64 + i) = false := by
    intro i hi
    have := hb i
    simp only [swap, BitVec.getLsbD_append, hi, if_true] at this
    simpa [hi] using this
  intro i hi
  rw [show (0 : Block).getLsbD i = false by simp]
  by_cases h64 : i < 64
  · have := hb (64 + i)
    have h2 := hhi i h64
    simp only [swap, BitVec.getLsbD_append] at this
    simpa [h64, h2] using this
  · have := hhi (i - 64) (by omega)
    rwa [show 64 + (i - 64) = i by omega] at this

theorem swap_inj : Function.Injective swap := by
  intro a b h
  have : swap (a ^^^ b) = 0 := by rw [swap_lin, h, BitVec.xor_self]; rfl
  have h2 := swap_zero this
  have := congrArg (· ^^^ b) h2
  simpa [BitVec.xor_assoc] using this

def caseEnv : Env where
  perm := id
  sigma := swap
  hash := fun _ => 0
  prg := fun _ => 0
  cotK := fun _ => 0
  cotR := fun _ => false
  fixPoint := 0
  const0 := GC.makeBlock 1 0
  const1 := GC.makeBlock 2 0

theorem case_fair : Fair caseEnv := by
  refine ⟨swap_lin, swap_inj, fun e0 e1 u hu h => ?_⟩
  have hlow : (swap (sel e0 (GC.makeBlock 1 0) ^^^ sel e1 (GC.makeBlock 2 0))).extractLsb' 0 64 = 0 := by
    rw [show swap (sel e0 (GC.makeBlock 1 0) ^^^ sel e1 (GC.makeBlock 2 0)) = GC.makeBlock u 0 from h]
    apply BitVec.eq_of_getLsbD_eq
    intro i hi
    simp only [GC.makeBlock, BitVec.getLsbD_extractLsb', BitVec.getLsbD_append]
    simp [hi]
  cases e0 <;> cases e1
  · apply hu
    have h' : (GC.makeBlock u 0).extractLsb' 64 64 = 0 := by
      rw [show GC.makeBlock u 0 = swap (sel false (GC.makeBlock 1 0) ^^^ sel false (GC.makeBlock 2 0)) from h.symm]; decide
    have e : (GC.makeBlock u 0).extractLsb' 64 64 = u := by
      apply BitVec.eq_of_getLsbD_eq
      intro i hi
      simp only [GC.makeBlock, BitVec.getLsbD_extractLsb', BitVec.getLsbD_append]
      simp [hi]
    rw [← e, h']
  all_goals exact absurd hlow (by decide)

def caseOps (a : Bool) : List Op := [.inA a, .inB false, .and 0 1, .reveal .bob [2]]

/-- ALICE feeds 0 or 1, BOB feeds 0: the AND is 0 both times.  The distinguisher asks for one more value. -/
example (point : View → Block) (D : View → Ask Bool) (hD : D = fun v => .ask (point v) fun y => .done (lsb y)) :
    Nat.card {r : Draw 2 // (D (view (envOf caseEnv r) r.2.2 (caseOps false) (caseOps false))).run r.1 = true} * 2 ^ 128
      ≤ Nat.card {r : Draw 2 // (D (view (envOf caseEnv r) r.2.2 (caseOps false) (caseOps true))).run r.1 = true} * 2 ^ 128 + 16 * Nat.card (Draw 2) := by
  have h := C67_advantage case_fair (caseOps false) (caseOps false) (caseOps true) (List.forall₂_same.2 fun op _ => shape_refl op) rfl rfl
    (by rw [show ands (caseOps false) = 1 from rfl]; omega) (N := 2) rfl D 1 (fun v P => by rw [hD]; exact Nat.le_refl 1)
  rw [show ands (caseOps false) = 1 from rfl] at h
  exact h

example : Nat.card {r : Draw 2 // ¬Good (envOf caseEnv r) r.2.2 (caseOps true)} * 2 ^ 128 ≤ 12 * Nat.card (Draw 2) := by
  have h := C67_coincidence case_fair (caseOps true) (by rw [show ands (caseOps true) = 1 from rfl]; omega) (N := 2) rfl
  rw [show ands (caseOps true) = 1 from rfl] at h
  exact h

example (N : Nat) : 0 < Nat.card (Draw N) := Nat.card_pos

end Verif.Props.EvaluatorBound
