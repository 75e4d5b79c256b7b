import Verif.Model.GC

/-! Garbled execution: one gate, one operation. -/

namespace Verif.Lemmas
open Verif.Model Verif.Model.GC
open Verif.Spec.Circuit (Party Op)

theorem lsb_xor (a b : Block) : lsb (a ^^^ b) = (lsb a != lsb b) := by simp [lsb]

theorem lsb_sel (s : Bool) (d : Block) (hd : lsb d = true) : lsb (sel s d) = s := by
  cases s <;> simp [sel, hd]; simp [lsb]

theorem sel_xor (s t : Bool) (d : Block) : sel s d ^^^ sel t d = sel (s != t) d := by
  cases s <;> cases t <;> simp [sel]

/-- One half gate. -/
theorem halfgate (E : Env) (LA LB delta : Block) (hd : lsb delta = true) (idx : Nat) (a b : Bool) :
    evalGate E (LA ^^^ sel a delta) (LB ^^^ sel b delta) (garble E LA (LA ^^^ delta) LB (LB ^^^ delta) delta idx).2 idx
      = (garble E LA (LA ^^^ delta) LB (LB ^^^ delta) delta idx).1 ^^^ sel (a && b) delta := by
  unfold evalGate garble
  simp only [lsb_xor, lsb_sel _ _ hd]
  generalize lsb LA = pa
  generalize lsb LB = pb
  cases a <;> cases b <;> simp only [sel, show (0 : Block) = 0#128 from rfl, BitVec.xor_zero, Bool.false_eq_true, if_false, if_true,
    Bool.and_true, Bool.and_false, Bool.and_self] <;>
  · generalize E.h LA (tweak1 idx) = x1
    generalize E.h (LA ^^^ delta) (tweak1 idx) = x2
    generalize E.h LB (tweak2 idx) = x3
    generalize E.h (LB ^^^ delta) (tweak2 idx) = x4
    cases pa <;> cases pb <;> simp <;> (ext i hi; simp <;> grind)


/-! ### Optimised backend -/

/-- Relation between the garbler's and the evaluator's block of a wire with value `v`. -/
def WRel (delta g e : Block) (v : Bool) : Prop :=
  (g = publicLabel v ∧ e = publicLabel v) ∨ (isPublic g = false ∧ isPublic e = false ∧ e = g ^^^ sel v delta)

theorem isZero_iff (b : Block) : isZero b = true ↔ b = zeroB := by simp [isZero]
theorem isOne_iff (b : Block) : isOne b = true ↔ b = oneB := by simp [isOne]

theorem zero_ne_one : zeroB ≠ oneB := by decide

theorem isPublic_false {b : Block} (h : isPublic b = false) : isZero b = false ∧ isOne b = false := by
  simpa [isPublic] using h

@[simp] theorem isZero_zeroB : isZero zeroB = true := by decide
@[simp] theorem isOne_oneB : isOne oneB = true := by decide
@[simp] theorem isZero_oneB : isZero oneB = false := by decide
@[simp] theorem isOne_zeroB : isOne zeroB = false := by decide

theorem WRel.not {delta g e v} (h : WRel delta g e v)
    (hc : isPublic g = false → isPublic (genNot delta g) = false) : WRel delta (genNot delta g) (evaNot e) (!v) := by
  rcases h with ⟨rfl, rfl⟩ | ⟨h1, h2, h3⟩
  · left; cases v <;> simp [publicLabel, genNot, evaNot]
  · right
    have hg := hc h1
    obtain ⟨a1, a2⟩ := isPublic_false h1
    obtain ⟨b1, b2⟩ := isPublic_false h2
    simp only [genNot, evaNot, a1, a2, b1, b2, Bool.false_eq_true, if_false] at hg ⊢
    refine ⟨hg, h2, ?_⟩
    rw [h3]
    cases v <;> simp [sel, BitVec.xor_assoc]

theorem WRel.xor {E : Env} {delta g e v g' e' v'} (h : WRel delta g e v) (h' : WRel delta g' e' v')
    (hn : (isPublic g && isPublic g') = false →
      isPublic (genXor E delta g g') = false ∧ isPublic (evaXor E e e') = false)
    (hc : isPublic g = false → isPublic g' = false → (g ^^^ g' = zeroB ∨ g ^^^ g' = delta) → e = e') :
    WRel delta (genXor E delta g g') (evaXor E e e') (v != v') := by
  rcases h with ⟨rfl, rfl⟩ | ⟨h1, h2, h3⟩
  · cases v with
    | true =>
      have : (true != v') = !v' := by cases v' <;> rfl
      simp only [publicLabel, if_true, genXor, evaXor, isOne_oneB, this] at hn ⊢
      exact h'.not fun hp => (hn (by simp [hp])).1
    | false =>
      have : (false != v') = v' := by cases v' <;> rfl
      rw [this]
      rcases h' with ⟨rfl, rfl⟩ | ⟨k1, k2, k3⟩
      · left; cases v' <;> simp [publicLabel, genXor, evaXor, genNot, evaNot]
      · obtain ⟨a1, a2⟩ := isPublic_false k1
        obtain ⟨b1, b2⟩ := isPublic_false k2
        right; simp only [publicLabel, genXor, evaXor, a2, b2, Bool.false_eq_true, if_false, isOne_zeroB, isZero_zeroB, if_true]
        exact ⟨k1, k2, k3⟩
  · obtain ⟨a1, a2⟩ := isPublic_false h1
    obtain ⟨b1, b2⟩ := isPublic_false h2
    rcases h' with ⟨rfl, rfl⟩ | ⟨k1, k2, k3⟩
    · cases v' with
      | true =>
        have : (v != true) = !v := by cases v <;> rfl
        rw [this]
        simp only [publicLabel, if_true, genXor, evaXor, a2, b2, Bool.false_eq_true, if_false, isOne_oneB] at hn ⊢
        exact WRel.not (Or.inr ⟨h1, h2, h3⟩) fun hp => (hn (by simp [hp])).1
      | false =>
        have : (v != false) = v := by cases v <;> rfl
        rw [this]
        simp only [publicLabel, genXor, evaXor, a1, a2, b1, b2, Bool.false_eq_true, if_false, isOne_zeroB, isZero_zeroB, if_true]
        exact Or.inr ⟨h1, h2, h3⟩
    · obtain ⟨c1, c2⟩ := isPublic_false k1
      obtain ⟨d1, d2⟩ := isPublic_false k2
      obtain ⟨p1, p2⟩ := hn (by simp [h1])
      have p3 := hc h1 k1
      right
      refine ⟨p1, p2, ?_⟩
      simp only [genXor, evaXor, a1, a2, b1, b2, c1, c2, d1, d2, Bool.false_eq_true, if_false]
      have hee : e ^^^ e' = (g ^^^ g') ^^^ sel (v != v') delta := by
        rw [h3, k3, ← sel_xor]; ext i hi; simp <;> grind
      by_cases z : g ^^^ g' = zeroB
      · have he := p3 (Or.inl z)
        have hs : sel (v != v') delta = 0 := by
          rw [he, z] at hee; simp [zeroB] at hee; exact hee.symm
        rw [he, z, hs]
        simp [zeroB, isZero]
      · have z' : isZero (g ^^^ g') = false := by simpa [isZero] using z
        by_cases zd : g ^^^ g' = delta
        · have he := p3 (Or.inr zd)
          have hs : sel (v != v') delta = delta := by
            rw [he, zd] at hee
            simp only [BitVec.xor_self] at hee
            have := congrArg (delta ^^^ ·) hee
            simp only [← BitVec.xor_assoc, BitVec.xor_self, BitVec.zero_xor, BitVec.xor_zero] at this
            exact this.symm
          have z2 : isZero (e ^^^ e') = true := by rw [he]; simp [isZero, zeroB]
          have zd' : (g ^^^ g' == delta) = true := by simpa using zd
          simp only [z', Bool.false_eq_true, if_false, zd', if_true, z2, hs, BitVec.xor_assoc, BitVec.xor_self,
            BitVec.xor_zero]
        · have zd' : (g ^^^ g' == delta) = false := by simpa using zd
          have z2 : isZero (e ^^^ e') = false := by
            rw [hee]
            simp only [isZero, beq_eq_false_iff_ne, ne_eq, zeroB]
            intro hh
            cases hv : (v != v') with
            | false => rw [hv] at hh; simp [sel] at hh; exact z (by rw [zeroB]; exact BitVec.xor_eq_zero_iff.2 hh)
            | true =>
              rw [hv] at hh
              simp only [sel, if_true] at hh
              exact zd (BitVec.xor_eq_zero_iff.1 hh)
          simp only [z', Bool.false_eq_true, if_false, zd', z2]
          exact hee

theorem evaRevealLoop_spec (p : Party) (delta : Block) (hd : lsb delta = true) :
    ∀ (gl el : List Block) (vs : List Bool) (q : List Msg),
    gl.length = el.length → gl.length = vs.length →
    (∀ i (h : i < gl.length) (h2 : i < el.length) (h3 : i < vs.length), WRel delta gl[i] el[i] vs[i]) →
    ∃ eb s, evaRevealLoop p el (genRevealSend p gl ++ q) = .ok (eb, q, s)
      ∧ (p ≠ .alice → eb = vs) ∧ eb.length = vs.length
      ∧ ∀ q', ∃ gb, genRevealLoop p gl (s ++ q') = .ok (gb, q') ∧ (p = .alice → gb = vs) := by
  intro gl
  induction gl with
  | nil =>
    intro el vs q h1 h2 _
    have : el = [] := List.length_eq_zero_iff.1 h1.symm
    have : vs = [] := List.length_eq_zero_iff.1 h2.symm
    subst_vars
    refine ⟨[], [], ?_, by simp, rfl, fun q' => ⟨[], rfl, by simp⟩⟩
    unfold genRevealSend; split <;> rfl
  | cons g gl ih =>
    intro el vs q h1 h2 h
    cases el with
    | nil => simp at h1
    | cons e el =>
    cases vs with
    | nil => simp at h2
    | cons v vs =>
    have hw := h 0 (by simp) (by simp) (by simp)
    simp only [List.getElem_cons_zero] at hw
    have hrest : ∀ i (h : i < gl.length) (h2 : i < el.length) (h3 : i < vs.length), WRel delta gl[i] el[i] vs[i] := by
      intro i a b c
      have := h (i + 1) (by simpa using a) (by simpa using b) (by simpa using c)
      simpa using this
    simp only [List.length_cons, Nat.add_right_cancel_iff] at h1 h2
    rcases hw with ⟨rfl, rfl⟩ | ⟨k1, k2, k3⟩
    · obtain ⟨eb, s, e1, e2, e3, e4⟩ := ih el vs q h1 h2 hrest
      have hsend : genRevealSend p (publicLabel v :: gl) = genRevealSend p gl := by
        unfold genRevealSend
        have : (!isPublic (publicLabel v)) = false := by cases v <;> simp [publicLabel, isPublic]
        rw [List.filter_cons_of_neg (by simp [this])]
      refine ⟨v :: eb, s, ?_, fun hp => by rw [e2 hp], by simp [e3], fun q' => ?_⟩
      · rw [hsend]
        cases v <;> simp [evaRevealLoop, publicLabel, e1, bind, Except.bind]
      · obtain ⟨gb, f1, f2⟩ := e4 q'
        refine ⟨v :: gb, ?_, fun hp => by rw [f2 hp]⟩
        cases v <;> simp [genRevealLoop, publicLabel, f1, bind, Except.bind]
    · obtain ⟨a1, a2⟩ := isPublic_false k1
      obtain ⟨b1, b2⟩ := isPublic_false k2
      have hbit : lsb e = (lsb g != v) := by rw [k3, lsb_xor, lsb_sel _ _ hd]
      obtain ⟨eb, s, e1, e2, e3, e4⟩ := ih el vs q h1 h2 hrest
      by_cases hp : p = .alice
      · subst hp
        have hs : ∀ l, genRevealSend Party.alice l = [] := fun l => by simp [genRevealSend]
        rw [hs, List.nil_append] at e1
        refine ⟨false :: eb, .bit (lsb e) :: s, ?_, by simp, by simp [e3], fun q' => ?_⟩
        · rw [hs]
          simp [evaRevealLoop, b1, b2, e1, bind, Except.bind]
        · obtain ⟨gb, f1, f2⟩ := e4 q'
          refine ⟨v :: gb, ?_, fun hp => by rw [f2 hp]⟩
          simp only [genRevealLoop, a1, a2, Bool.false_eq_true, if_false, if_true, List.cons_append, recvBit, bind,
            Except.bind, f1, hbit]
          congr 2; cases lsb g <;> cases v <;> rfl
      · have hsend : genRevealSend p (g :: gl) = .bit (lsb g) :: genRevealSend p gl := by
          unfold genRevealSend
          rw [if_neg hp, if_neg hp, List.filter_cons_of_pos (by simp [k1])]; rfl
        refine ⟨v :: eb, s, ?_, fun hp => by rw [e2 hp], by simp [e3], fun q' => ?_⟩
        · rw [hsend]
          simp only [evaRevealLoop, b1, b2, Bool.false_eq_true, if_false, hp, List.cons_append, recvBit, bind,
            Except.bind, e1, hbit]
          congr 2; cases lsb g <;> cases v <;> rfl
        · obtain ⟨gb, f1, f2⟩ := e4 q'
          refine ⟨false :: gb, ?_, fun hh => absurd hh hp⟩
          simp only [genRevealLoop, a1, a2, Bool.false_eq_true, if_false, hp, bind, Except.bind, f1]

theorem genOpenBlocks_spec (delta : Block) :
    ∀ (gl el : List Block) (vs : List Bool), gl.length = el.length → gl.length = vs.length →
    (∀ i (h : i < gl.length) (h2 : i < el.length) (h3 : i < vs.length), WRel delta gl[i] el[i] vs[i]) →
    genOpenBlocks delta gl vs = el := by
  intro gl
  induction gl with
  | nil =>
    intro el vs h1 _ _
    have : el = [] := List.length_eq_zero_iff.1 h1.symm
    subst this; rfl
  | cons g gl ih =>
    intro el vs h1 h2 h
    cases el with
    | nil => simp at h1
    | cons e el =>
    cases vs with
    | nil => simp at h2
    | cons v vs =>
    have hw := h 0 (by simp) (by simp) (by simp)
    simp only [List.getElem_cons_zero] at hw
    have := ih el vs (by simpa using h1) (by simpa using h2) (by
      intro i a b c
      have := h (i + 1) (by simpa using a) (by simpa using b) (by simpa using c)
      simpa using this)
    unfold genOpenBlocks at this ⊢
    rw [List.zipWith_cons_cons, this]
    congr 1
    rcases hw with ⟨rfl, rfl⟩ | ⟨k1, k2, k3⟩
    · have : isPublic (publicLabel v) = true := by cases v <;> simp [publicLabel, isPublic]
      rw [this]; rfl
    · rw [k1, k3]; cases v <;> simp [sel]

end Verif.Lemmas
