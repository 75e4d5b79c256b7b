import Verif.Props.GarblerView
import Mathlib.SetTheory.Cardinal.Finite

/-!
What the evaluator learns (C62).  The evaluator sees its own inputs, the labels it evaluates on, the garbled tables and the bits it decodes with.
For two programs that differ only in the inputs of ALICE and open the same values to BOB there is a one-to-one change of the permutation under the
garbling hash, at points the evaluator never asks for, that makes its view the same.
-/

namespace Verif.Props.EvaluatorView
open Verif.Model Verif.Model.GC Verif.Lemmas
open Verif.Spec.Circuit (Party Op)
open Verif.Spec
open Verif.Props (NetInv Clean NoCoincidence net_step pub_isPublic evaAnd_left evaAnd_right opened_cons exEnv)
open Verif.Props.Direct (start start_inv)
open Verif.Props.GarblerView (step_parties join recvBit_frame)

/-! ### The evaluator alone -/

theorem recvTable_frame {q q' : List Msg} {t : Block × Block} (h : recvTable q = .ok (t, q')) (r : List Msg) :
    recvTable (q ++ r) = .ok (t, q' ++ r) := by
  unfold recvTable at h
  split at h
  · cases h; rfl
  · cases h

theorem evaRevealLoop_frame (p : Party) (ls : List Block) : ∀ {q q' s : List Msg} {b : List Bool}, evaRevealLoop p ls q = .ok (b, q', s) →
    ∀ r, evaRevealLoop p ls (q ++ r) = .ok (b, q' ++ r, s) := by
  induction ls with
  | nil => intro q q' s b h r; cases h; rfl
  | cons l ls ih =>
    intro q q' s b h r
    simp only [evaRevealLoop, bind, Except.bind] at h ⊢
    split
    · rename_i h1
      rw [if_pos h1] at h
      cases hx : evaRevealLoop p ls q with
      | error x => rw [hx] at h; cases h
      | ok x => rw [hx] at h; cases h; rw [ih hx]
    · rename_i h1
      rw [if_neg h1] at h
      split
      · rename_i h2
        rw [if_pos h2] at h
        cases hx : evaRevealLoop p ls q with
        | error x => rw [hx] at h; cases h
        | ok x => rw [hx] at h; cases h; rw [ih hx]
      · rename_i h2
        rw [if_neg h2] at h
        split
        · rename_i h3
          rw [if_pos h3] at h
          cases hx : evaRevealLoop p ls q with
          | error x => rw [hx] at h; cases h
          | ok x => rw [hx] at h; cases h; rw [ih hx]
        · rename_i h3
          rw [if_neg h3] at h
          cases hb : recvBit q with
          | error x => rw [hb] at h; cases h
          | ok x =>
            rw [hb] at h
            rw [recvBit_frame hb]
            simp only at h ⊢
            cases hx : evaRevealLoop p ls x.2 with
            | error y => rw [hx] at h; cases h
            | ok y => rw [hx] at h; cases h; rw [ih hx]

/-- What the evaluator does depends on the messages it reads and not on those that follow. -/
theorem step_frame (E : Env) (cot : Nat → Block) (c : Nat → Bool) (e : Eva) (op : Op) {q q' s : List Msg} {o : Option (List Bool)} {e' : Eva}
    (h : e.step E cot c op q = .ok (o, e', q', s)) (r : List Msg) : e.step E cot c op (q ++ r) = .ok (o, e', q' ++ r, s) := by
  cases op with
  | and i j =>
    simp only [Eva.step, evaAnd, bind, Except.bind] at h ⊢
    by_cases h1 : (isZero (e.get i) || isOne (e.get i) || isZero (e.get j) || isOne (e.get j)) = true
    · rw [if_pos h1] at h ⊢
      cases h; rfl
    · rw [if_neg h1] at h ⊢
      cases hb : recvTable q with
      | error x => rw [hb] at h; cases h
      | ok x => rw [hb] at h; rw [recvTable_frame hb]; cases h; rfl
  | reveal p ws =>
    simp only [Eva.step, bind, Except.bind] at h ⊢
    cases hb : evaRevealLoop p (ws.map e.get) q with
    | error x => rw [hb] at h; cases h
    | ok x => rw [hb] at h; rw [evaRevealLoop_frame _ _ hb]; cases h; rfl
  | _ => cases h; rfl

/-- The outputs of the evaluator. -/
def theirs (os : List (Party × List Bool × List Bool)) : List (List Bool) := os.map (·.2.2)

/-- An operation without the input of ALICE. -/
def blindA : Op → Op
  | .inA _ => .inA false
  | op => op

/-- The evaluator does not read the inputs of ALICE. -/
theorem step_blind (E : Env) (cot : Nat → Block) (c : Nat → Bool) (e : Eva) (op : Op) (q : List Msg) :
    e.step E cot c (blindA op) q = e.step E cot c op q := by cases op <;> rfl

/-- **C62, the parties.**  A joint run that succeeds can be recorded; the evaluator alone — with the blocks of its correlated OTs, its choice bits,
a program without the inputs of ALICE and the recorded messages — has the same outputs and ends in the same state. -/
theorem C62_parties (E : Env) (ops : List Op) : ∀ (n n' : Net) (os : List (Party × List Bool × List Bool)), n.run E ops = .ok (os, n') →
    ∃ l s, n.recordEva E ops = .ok (l, n')
      ∧ n.eva.run E (cotM E n.gen.delta) E.cotR (ops.map blindA) (n.toEva ++ l) = .ok (theirs os, n'.eva, n'.toEva, s) := by
  induction ops with
  | nil => intro n n' os h; cases h; exact ⟨[], [], rfl, by simp [Eva.run, theirs]⟩
  | cons op ops ih =>
    intro n n' os h
    simp only [Net.run, step_parties, bind, Except.bind] at h
    simp only [Net.recordEva, bind, Except.bind]
    cases h1 : n.eva.step E (cotM E n.gen.delta) E.cotR op (n.toEva ++ (n.gen.send E op).2) with
    | error x => rw [h1] at h; cases h
    | ok x =>
      obtain ⟨eb, e, q, s⟩ := x
      rw [h1] at h
      simp only at h ⊢
      cases h2 : (n.gen.send E op).1.recv E op (n.toGen ++ s) with
      | error x => rw [h2] at h; cases h
      | ok x =>
        obtain ⟨gb, g, q'⟩ := x
        rw [h2] at h
        simp only at h ⊢
        cases h3 : Net.run E ⟨g, e, q, q'⟩ ops with
        | error x => rw [h3] at h; cases h
        | ok x =>
          obtain ⟨os', m⟩ := x
          rw [h3] at h
          cases h
          obtain ⟨l, t, e1, e2⟩ := ih _ _ _ h3
          rw [e1]
          refine ⟨(n.gen.send E op).2 ++ l, s ++ t, rfl, ?_⟩
          have hd : g.delta = n.gen.delta := by
            have hs : (n.gen.send E op).1.delta = n.gen.delta := by
              cases op with
              | and i j =>
                simp only [Gen.send, genAnd, Gen.push]
                split
                · rfl
                · split
                  · rfl
                  · split <;> rfl
              | _ => rfl
            cases op with
            | inB b =>
              simp only [Gen.recv, bind, Except.bind] at h2
              split at h2
              · cases h2
              · cases h2; exact hs
            | reveal p ws =>
              simp only [Gen.recv, bind, Except.bind] at h2
              split at h2
              · cases h2
              · split at h2
                · cases h2
                · cases h2; exact hs
            | pub b => cases h2; exact hs
            | inA b => cases h2; exact hs
            | and i j => cases h2; exact hs
            | xor i j => cases h2; exact hs
            | not i => cases h2; exact hs
          simp only [List.map_cons, Eva.run, bind, Except.bind, step_blind]
          rw [← List.append_assoc, step_frame E _ _ _ op h1 l]
          simp only
          simp only [hd] at e2
          rw [e2]
          simp only [theirs, List.map_append]
          congr 3
          cases op with
          | reveal p ws =>
            simp only [Eva.step, bind, Except.bind] at h1
            simp only [Gen.recv, bind, Except.bind] at h2
            split at h1
            · cases h1
            · cases h1
              split at h2
              · cases h2
              · split at h2
                · cases h2
                · cases h2; rfl
          | inB b =>
            cases h1
            simp only [Gen.recv, bind, Except.bind] at h2
            split at h2
            · cases h2
            · cases h2; rfl
          | and i j =>
            cases h2
            simp only [Eva.step, bind, Except.bind] at h1
            split at h1
            · cases h1
            · cases h1; rfl
          | pub b => cases h1; cases h2; rfl
          | inA b => cases h1; cases h2; rfl
          | xor i j => cases h1; cases h2; rfl
          | not i => cases h1; cases h2; rfl

/-! ### Coincidences, on the side of the evaluator -/

/-- Neither the label `x` nor the other label of the wire is the block of a constant. -/
def Clear (d x : Block) : Prop := isPublic x = false ∧ isPublic (x ^^^ d) = false

theorem Clear.sel {d x : Block} (h : Clear d x) (s : Bool) : isPublic (x ^^^ GC.sel s d) = false := by
  cases s
  · simpa [GC.sel] using h.1
  · simpa [GC.sel] using h.2

theorem Clear.shift {d x : Block} (h : Clear d x) (s : Bool) : Clear d (x ^^^ GC.sel s d) := by
  cases s
  · simpa [GC.sel] using h
  · refine ⟨by simpa [GC.sel] using h.2, ?_⟩
    simp only [GC.sel, if_true, BitVec.xor_assoc, BitVec.xor_self, BitVec.xor_zero]
    exact h.1

/-- No accidental coincidence in one operation, in terms of the labels that the evaluator holds and the offset: a secret wire never gets the block of a
constant as one of its two labels, and no two labels of the evaluator differ by the offset. -/
def Apart (E : Env) (n : Net) : Op → Prop
  | .inA _ => Clear n.gen.delta (E.prg n.gen.prgPos)
  | .inB _ => Clear n.gen.delta (E.cotK n.gen.cotPos)
  | .and i j => isPublic (n.eva.get i) = false → isPublic (n.eva.get j) = false →
      Clear n.gen.delta (evalGate E (n.eva.get i) (n.eva.get j)
        (garble E (n.gen.get i) (n.gen.get i ^^^ n.gen.delta) (n.gen.get j) (n.gen.get j ^^^ n.gen.delta) n.gen.delta n.gen.gid).2 n.gen.gid)
  | .xor i j => isPublic (n.eva.get i) = false → isPublic (n.eva.get j) = false →
      n.eva.get i ^^^ n.eva.get j ≠ n.gen.delta ∧ Clear n.gen.delta (evaXor E (n.eva.get i) (n.eva.get j))
  | _ => True

/-- No accidental coincidence in a run. -/
def AllApart (E : Env) (n : Net) : List Op → Prop
  | [] => True
  | op :: ops => Apart E n op ∧ ∀ o n', n.step E op = .ok (o, n') → AllApart E n' ops

/-- The state of a run: `NetInv`, and all labels of the evaluator are clear or those of constants. -/
structure Inv (n : Net) (w : List Bool) : Prop extends NetInv n w where
  clear : ∀ i, isPublic (n.eva.get i) = true ∨ Clear n.gen.delta (n.eva.get i)

theorem _root_.Verif.Lemmas.WRel.pub_iff {d g e : Block} {v : Bool} (h : WRel d g e v) : isPublic g = isPublic e := by
  rcases h with ⟨rfl, rfl⟩ | ⟨a, b, _⟩
  · rfl
  · rw [a, b]

theorem _root_.Verif.Lemmas.WRel.gen {d g e : Block} {v : Bool} (h : WRel d g e v) (hp : isPublic e = false) : g = e ^^^ sel v d := by
  rcases h with ⟨rfl, rfl⟩ | ⟨_, _, c⟩
  · rw [pub_isPublic] at hp; exact absurd hp (by decide)
  · rw [c, BitVec.xor_assoc, sel_xor]; simp [sel]

theorem _root_.Verif.Lemmas.WRel.public {d g e : Block} {v : Bool} (h : WRel d g e v) (hp : isPublic e = true) : g = publicLabel v ∧ e = publicLabel v := by
  rcases h with h | ⟨_, b, _⟩
  · exact h
  · rw [b] at hp; exact absurd hp (by decide)

theorem Inv.clear' {n : Net} {w : List Bool} (h : Inv n w) {i : Nat} (hp : isPublic (n.eva.get i) = false) : Clear n.gen.delta (n.eva.get i) := by
  rcases h.clear i with a | a
  · rw [a] at hp; exact absurd hp (by decide)
  · exact a

theorem sel_ne {d : Block} (hd : lsb d = true) : d ≠ 0 := by
  intro h; rw [h] at hd; exact absurd hd (by decide)

theorem genXor_secret {E : Env} {d a b : Block} (ha : isPublic a = false) (hb : isPublic b = false) :
    genXor E d a b = if isZero (a ^^^ b) then E.fixPoint else if a ^^^ b == d then E.fixPoint ^^^ d else a ^^^ b := by
  obtain ⟨a1, a2⟩ := isPublic_false ha
  obtain ⟨b1, b2⟩ := isPublic_false hb
  simp only [genXor, a1, a2, b1, b2, Bool.false_eq_true, if_false]

theorem evaXor_secret {E : Env} {a b : Block} (ha : isPublic a = false) (hb : isPublic b = false) :
    evaXor E a b = if isZero (a ^^^ b) then E.fixPoint else a ^^^ b := by
  obtain ⟨a1, a2⟩ := isPublic_false ha
  obtain ⟨b1, b2⟩ := isPublic_false hb
  simp only [evaXor, a1, a2, b1, b2, Bool.false_eq_true, if_false]

/-- In a run without coincidences the garbler's label of an xor is that of the evaluator, up to the offset. -/
theorem genXor_eq {E : Env} {d e e' : Block} {v v' : Bool} (hd : lsb d = true) (h : Clear d e) (h' : Clear d e') (hn : e ^^^ e' ≠ d) :
    genXor E d (e ^^^ sel v d) (e' ^^^ sel v' d) = evaXor E e e' ^^^ sel (v != v') d := by
  rw [genXor_secret (h.sel v) (h'.sel v'), evaXor_secret h.1 h'.1]
  have hx : (e ^^^ sel v d) ^^^ (e' ^^^ sel v' d) = (e ^^^ e') ^^^ sel (v != v') d := by
    rw [← sel_xor]; ac_rfl
  rw [hx]
  by_cases he : e ^^^ e' = 0
  · have z : isZero (e ^^^ e') = true := by rw [he]; decide
    rw [z, he]
    cases hv : (v != v')
    · simp [sel, isZero, zeroB]
    · have : isZero (0 ^^^ sel true d) = false := by
        simp only [sel, if_true, isZero, beq_eq_false_iff_ne]
        intro hh
        refine sel_ne hd ?_
        simpa [zeroB] using hh
      rw [this]
      simp [sel]
  · have z : isZero (e ^^^ e') = false := by simpa [isZero, zeroB] using he
    rw [z]
    cases hv : (v != v')
    · have t1 : isZero ((e ^^^ e') ^^^ sel false d) = false := by simpa [sel] using z
      have t2 : ((e ^^^ e') ^^^ sel false d == d) = false := by simpa [sel] using hn
      rw [t1, t2]; rfl
    · have t1 : isZero ((e ^^^ e') ^^^ sel true d) = false := by
        simp only [isZero, sel, if_true, zeroB, beq_eq_false_iff_ne]
        intro hh
        exact hn (BitVec.xor_eq_zero_iff.1 hh)
      have t2 : ((e ^^^ e') ^^^ sel true d == d) = false := by
        simp only [sel, if_true, beq_eq_false_iff_ne]
        intro hh
        apply he
        have := congrArg (· ^^^ d) hh
        simpa [BitVec.xor_assoc] using this
      rw [t1, t2]; rfl

theorem apart_clean {E : Env} {n : Net} {w : List Bool} (h : Inv n w) {op : Op} (ha : Apart E n op) : Clean E n op := by
  cases op with
  | pub b => trivial
  | reveal p ws => trivial
  | inA b => exact ⟨Clear.sel ha b, ha.1⟩
  | inB b => exact ⟨Clear.sel ha _, Clear.sel ha _⟩
  | and i j =>
    intro pi pj
    have qi : isPublic (n.eva.get i) = false := by rw [← (h.rel i).pub_iff]; exact pi
    have qj : isPublic (n.eva.get j) = false := by rw [← (h.rel j).pub_iff]; exact pj
    have hk := ha qi qj
    refine ⟨?_, hk.1⟩
    have hh := halfgate E (n.gen.get i) (n.gen.get j) n.gen.delta h.delta n.gen.gid (Circuit.get w i) (Circuit.get w j)
    have ei : n.eva.get i = n.gen.get i ^^^ sel (Circuit.get w i) n.gen.delta := by
      rw [(h.rel i).gen qi, BitVec.xor_assoc, sel_xor]; simp [sel]
    have ej : n.eva.get j = n.gen.get j ^^^ sel (Circuit.get w j) n.gen.delta := by
      rw [(h.rel j).gen qj, BitVec.xor_assoc, sel_xor]; simp [sel]
    rw [← ei, ← ej] at hh
    rw [hh] at hk
    have := hk.sel (Circuit.get w i && Circuit.get w j)
    rw [BitVec.xor_assoc, sel_xor] at this
    simpa [sel] using this
  | xor i j =>
    refine ⟨fun hp => ?_, fun pi pj hz => ?_⟩
    · rw [(h.rel i).pub_iff, (h.rel j).pub_iff] at hp
      cases qi : isPublic (n.eva.get i) with
      | false =>
        cases qj : isPublic (n.eva.get j) with
        | false =>
          obtain ⟨k1, k2⟩ := ha qi qj
          rw [(h.rel i).gen qi, (h.rel j).gen qj, genXor_eq h.delta (h.clear' qi) (h.clear' qj) k1]
          exact ⟨k2.sel _, k2.1⟩
        | true =>
          obtain ⟨g1, g2⟩ := (h.rel j).public qj
          have hk := h.clear' qi
          rw [(h.rel i).gen qi, g1, g2]
          obtain ⟨a1, a2⟩ := isPublic_false qi
          obtain ⟨b1, b2⟩ := isPublic_false (hk.sel (Circuit.get w i))
          cases Circuit.get w j with
          | false =>
            simp only [publicLabel, genXor, evaXor, a1, a2, b1, b2, Bool.false_eq_true, if_false, isOne_zeroB, isZero_zeroB, if_true]
            exact ⟨hk.sel _, qi⟩
          | true =>
            simp only [publicLabel, genXor, evaXor, genNot, evaNot, a1, a2, b1, b2, Bool.false_eq_true, if_false, isOne_oneB, if_true]
            exact ⟨(hk.shift _).2, qi⟩
      | true =>
        rw [qi, Bool.true_and] at hp
        obtain ⟨g1, g2⟩ := (h.rel i).public qi
        have hk := h.clear' hp
        rw [(h.rel j).gen hp, g1, g2]
        obtain ⟨a1, a2⟩ := isPublic_false hp
        obtain ⟨b1, b2⟩ := isPublic_false (hk.sel (Circuit.get w j))
        cases Circuit.get w i with
        | false =>
          simp only [publicLabel, genXor, evaXor, a1, a2, b1, b2, Bool.false_eq_true, if_false, isOne_zeroB, isZero_zeroB, if_true]
          exact ⟨hk.sel _, hp⟩
        | true =>
          simp only [publicLabel, genXor, evaXor, genNot, evaNot, a1, a2, b1, b2, Bool.false_eq_true, if_false, isOne_oneB, if_true]
          exact ⟨(hk.shift _).2, hp⟩
    · have qi : isPublic (n.eva.get i) = false := by rw [← (h.rel i).pub_iff]; exact pi
      have qj : isPublic (n.eva.get j) = false := by rw [← (h.rel j).pub_iff]; exact pj
      obtain ⟨k1, _⟩ := ha qi qj
      rw [(h.rel i).gen qi, (h.rel j).gen qj] at hz
      have hx : ∀ v v', (n.eva.get i ^^^ sel v n.gen.delta) ^^^ (n.eva.get j ^^^ sel v' n.gen.delta)
          = (n.eva.get i ^^^ n.eva.get j) ^^^ sel (v != v') n.gen.delta := by
        intro v v'; rw [← sel_xor]; ac_rfl
      rw [hx] at hz
      apply BitVec.xor_eq_zero_iff.1
      cases hv : (Circuit.get w i != Circuit.get w j) <;> rw [hv] at hz <;> simp only [sel, Bool.false_eq_true, if_false, if_true] at hz
      · rcases hz with hz | hz
        · simpa using hz
        · exact absurd (by simpa using hz) k1
      · rcases hz with hz | hz
        · exact absurd (BitVec.xor_eq_zero_iff.1 hz) k1
        · have := congrArg (· ^^^ n.gen.delta) hz
          simpa [BitVec.xor_assoc] using this
  | not i =>
    intro pi
    have qi : isPublic (n.eva.get i) = false := by rw [← (h.rel i).pub_iff]; exact pi
    obtain ⟨a1, a2⟩ := isPublic_false pi
    simp only [genNot, a1, a2, Bool.false_eq_true, if_false]
    rw [(h.rel i).gen qi]
    exact ((h.clear' qi).shift _).2

theorem eva_get_push (e : Eva) (x : Block) (i : Nat) :
    (e.push x).get i = if i < e.wires.length then e.get i else if i = e.wires.length then x else zeroB := by
  simp only [Eva.get, Eva.push, List.getD_eq_getElem?_getD]
  split
  · rename_i h; rw [List.getElem?_append_left h]
  · split
    · rename_i h; rw [h]; simp
    · rw [List.getElem?_eq_none (by simp; omega)]; rfl

/-- A new wire of the evaluator. -/
theorem clear_push {n : Net} {w : List Bool} (h : Inv n w) {e' : Eva} (he : e'.wires = n.eva.wires) {x : Block}
    (hx : isPublic x = true ∨ Clear n.gen.delta x) (i : Nat) : isPublic ((e'.push x).get i) = true ∨ Clear n.gen.delta ((e'.push x).get i) := by
  rw [eva_get_push]
  split
  · have : e'.get i = n.eva.get i := by simp only [Eva.get, he]
    rw [this]; exact h.clear i
  · split
    · exact hx
    · exact Or.inl (by decide)

theorem inv_step {E : Env} {n : Net} {w : List Bool} (h : Inv n w) {op : Op} (ha : Apart E n op) :
    ∃ o n', n.step E op = .ok (o, n') ∧ Inv n' (Circuit.next w op) ∧ n'.gen.delta = n.gen.delta := by
  obtain ⟨o, n', e1, h1, _⟩ := net_step E n w op h.toNetInv (apart_clean h ha)
  have hc := apart_clean h ha
  refine ⟨o, n', e1, ?_⟩
  suffices hs : n'.gen.delta = n.gen.delta ∧ ∀ i, isPublic (n'.eva.get i) = true ∨ Clear n.gen.delta (n'.eva.get i) from
    ⟨⟨h1, by rw [hs.1]; exact hs.2⟩, hs.1⟩
  cases op with
  | pub b => cases e1; exact ⟨rfl, clear_push h rfl (Or.inl (pub_isPublic b))⟩
  | inA b => cases e1; exact ⟨rfl, clear_push h (e' := { n.eva with prgPos := n.eva.prgPos + 1 }) rfl (Or.inr (by rw [h.prg]; exact ha))⟩
  | inB b =>
    simp only [Net.step, h.toGen, List.nil_append, recvBit, bind, Except.bind] at e1
    cases e1
    exact ⟨rfl, clear_push h (e' := { n.eva with cotPos := n.eva.cotPos + 1 }) rfl (Or.inr (by rw [h.cot]; exact Clear.shift ha _))⟩
  | xor i j =>
    cases e1
    refine ⟨rfl, clear_push h rfl ?_⟩
    cases qi : isPublic (n.eva.get i) with
    | false =>
      cases qj : isPublic (n.eva.get j) with
      | false => exact Or.inr (ha qi qj).2
      | true =>
        obtain ⟨_, g2⟩ := (h.rel j).public qj
        obtain ⟨a1, a2⟩ := isPublic_false qi
        have hk := h.clear' qi
        rw [g2]
        right
        cases Circuit.get w j <;>
          simpa only [publicLabel, evaXor, evaNot, a1, a2, Bool.false_eq_true, if_false, isOne_zeroB, isZero_zeroB, isOne_oneB, if_true] using hk
    | true =>
      obtain ⟨_, g2⟩ := (h.rel i).public qi
      rw [g2]
      have hk := h.clear j
      cases hv : Circuit.get w i with
      | false =>
        simp only [publicLabel, evaXor, evaNot, Bool.false_eq_true, if_false, isOne_zeroB, isZero_zeroB, if_true]
        split
        · exact Or.inl (by decide)
        · exact hk
      | true =>
        simp only [publicLabel, evaXor, evaNot, if_true, isOne_oneB]
        split
        · exact Or.inl (by decide)
        · split
          · exact Or.inl (by decide)
          · exact hk
  | not i =>
    cases e1
    refine ⟨rfl, clear_push h rfl ?_⟩
    simp only [evaNot]
    split
    · exact Or.inl (by decide)
    · split
      · exact Or.inl (by decide)
      · exact h.clear i
  | reveal p ws =>
    simp only [Net.step, bind, Except.bind] at e1
    split at e1
    · cases e1
    · split at e1
      · cases e1
      · split at e1
        · cases e1
        · cases e1; exact ⟨rfl, h.clear⟩
  | and i j =>
    cases qi : isPublic (n.eva.get i) with
    | true =>
      obtain ⟨g1, g2⟩ := (h.rel i).public qi
      simp only [Net.step, g1, g2, evaAnd_left, bind, Except.bind] at e1
      cases e1
      refine ⟨?_, clear_push h rfl ?_⟩
      · simp only [genAnd]
        split
        · rfl
        · split
          · rfl
          · split <;> rfl
      · split
        · exact h.clear j
        · exact Or.inl (by decide)
    | false =>
      cases qj : isPublic (n.eva.get j) with
      | true =>
        obtain ⟨g1, g2⟩ := (h.rel j).public qj
        simp only [Net.step, g1, g2, evaAnd_right, bind, Except.bind] at e1
        cases e1
        refine ⟨?_, clear_push h rfl ?_⟩
        · simp only [genAnd]
          split
          · rfl
          · split
            · rfl
            · split <;> rfl
        · split
          · exact h.clear i
          · exact Or.inl (by decide)
      | false =>
        have pi : isPublic (n.gen.get i) = false := by rw [(h.rel i).pub_iff]; exact qi
        have pj : isPublic (n.gen.get j) = false := by rw [(h.rel j).pub_iff]; exact qj
        obtain ⟨a1, a2⟩ := isPublic_false pi
        obtain ⟨b1, b2⟩ := isPublic_false pj
        obtain ⟨c1, c2⟩ := isPublic_false qi
        obtain ⟨d1, d2⟩ := isPublic_false qj
        simp only [Net.step, genAnd, evaAnd, a1, a2, b1, b2, c1, c2, d1, d2, Bool.or_self, Bool.false_eq_true, if_false,
          h.toEva, List.nil_append, recvTable, bind, Except.bind, h.gid] at e1
        cases e1
        exact ⟨rfl, clear_push h (e' := { n.eva with gid := n.gen.gid + 1 }) rfl (Or.inr (ha qi qj))⟩

/-! ### The points of the permutation -/

/-- The points at which the evaluator asks for the permutation in one operation. -/
def askedOp (E : Env) (n : Net) : Op → List Block
  | .and i j => if isPublic (n.eva.get i) || isPublic (n.eva.get j) then []
      else [E.sigma (n.eva.get i) ^^^ tweak1 n.gen.gid, E.sigma (n.eva.get j) ^^^ tweak2 n.gen.gid]
  | _ => []

/-- The other points the garbler asks for: the same with the labels the evaluator does not have. -/
def hiddenOp (E : Env) (n : Net) : Op → List Block
  | .and i j => if isPublic (n.eva.get i) || isPublic (n.eva.get j) then []
      else [E.sigma (n.eva.get i ^^^ n.gen.delta) ^^^ tweak1 n.gen.gid, E.sigma (n.eva.get j ^^^ n.gen.delta) ^^^ tweak2 n.gen.gid]
  | _ => []

/-- The same points, with what the permutation has to be changed by when the wires have the values `w'` instead of `w`. -/
def patchOp (E : Env) (n : Net) (w w' : List Bool) : Op → List (Block × Block)
  | .and i j => if isPublic (n.eva.get i) || isPublic (n.eva.get j) then []
      else [(E.sigma (n.eva.get i ^^^ n.gen.delta) ^^^ tweak1 n.gen.gid, sel (Circuit.get w j != Circuit.get w' j) n.gen.delta),
            (E.sigma (n.eva.get j ^^^ n.gen.delta) ^^^ tweak2 n.gen.gid, sel (Circuit.get w i != Circuit.get w' i) n.gen.delta)]
  | _ => []

/-- All points of a run, by `f`. -/
def points (E : Env) (f : Env → Net → Op → List Block) (n : Net) : List Op → List Block
  | [] => []
  | op :: ops => f E n op ++ (match n.step E op with
      | .ok (_, n1) => points E f n1 ops
      | .error _ => [])

/-- The points the evaluator asks for in a run. -/
def asked (E : Env) (n : Net) (ops : List Op) : List Block := points E askedOp n ops

/-- The other points of the garbler. -/
def hidden (E : Env) (n : Net) (ops : List Op) : List Block := points E hiddenOp n ops

/-- The changes of a run: wires `w` and program `ops`, to be replaced by `w'` and `ops'`. -/
def patch (E : Env) (n : Net) (w w' : List Bool) : List Op → List Op → List (Block × Block)
  | op :: ops, op' :: ops' =>
    patchOp E n w w' op ++ (match n.step E op with
      | .ok (_, n1) => patch E n1 (Circuit.next w op) (Circuit.next w' op') ops ops'
      | .error _ => [])
  | _, _ => []

/-- The hidden points are all different and none is asked for by the evaluator. -/
def Fresh (E : Env) (n : Net) (ops : List Op) : Prop := (hidden E n ops).Nodup ∧ ∀ x ∈ hidden E n ops, x ∉ asked E n ops

/-- The values opened to BOB or to both. -/
def toBob (l : List (Party × List Bool)) : List (List Bool) := (l.filter fun o => o.1 ≠ .alice).map (·.2)

/-- The environment with another permutation. -/
def withPerm (E : Env) (P : Block → Block) : Env := { E with perm := P }

/-! ### One operation -/

/-- The table of a gate in terms of the labels of the evaluator. -/
theorem garble_table (E : Env) (A B d : Block) (hd : lsb d = true) (va vb : Bool) (k : Nat) :
    (garble E (A ^^^ sel va d) (A ^^^ sel va d ^^^ d) (B ^^^ sel vb d) (B ^^^ sel vb d ^^^ d) d k).2
      = (E.h A (tweak1 k) ^^^ E.h (A ^^^ d) (tweak1 k) ^^^ sel (lsb B != vb) d,
         E.h B (tweak2 k) ^^^ E.h (B ^^^ d) (tweak2 k) ^^^ (A ^^^ sel va d)) := by
  have hx : ∀ (X : Block) (v : Bool) (t : Block), E.h (X ^^^ sel v d) t ^^^ E.h (X ^^^ sel v d ^^^ d) t = E.h X t ^^^ E.h (X ^^^ d) t := by
    intro X v t
    cases v
    · simp [sel]
    · simp only [sel, if_true, BitVec.xor_assoc, BitVec.xor_self, BitVec.xor_zero]
      ac_rfl
  simp only [garble, hx, lsb_xor, lsb_sel _ _ hd]

theorem h_withPerm {E : Env} {P : Block → Block} {x t c : Block} (h : P (E.sigma x ^^^ t) = E.perm (E.sigma x ^^^ t) ^^^ c) :
    (withPerm E P).h x t = E.h x t ^^^ c := by
  simp only [Env.h, withPerm, h]; ac_rfl

theorem h_same {E : Env} {P : Block → Block} {x t : Block} (h : P (E.sigma x ^^^ t) = E.perm (E.sigma x ^^^ t)) :
    (withPerm E P).h x t = E.h x t := by
  simp only [Env.h, withPerm, h]

/-- Two runs at the same point: the evaluator is in the same state and the offset is the same. -/
structure Twin (n n' : Net) (w w' : List Bool) : Prop where
  left : Inv n w
  right : Inv n' w'
  eva : n'.eva = n.eva
  delta : n'.gen.delta = n.gen.delta

theorem Twin.gid {n n' : Net} {w w' : List Bool} (h : Twin n n' w w') : n'.gen.gid = n.gen.gid := by
  rw [← h.left.gid, ← h.right.gid, h.eva]

theorem Twin.prg {n n' : Net} {w w' : List Bool} (h : Twin n n' w w') : n'.gen.prgPos = n.gen.prgPos := by
  rw [← h.left.prg, ← h.right.prg, h.eva]

theorem Twin.cot {n n' : Net} {w w' : List Bool} (h : Twin n n' w w') : n'.gen.cotPos = n.gen.cotPos := by
  rw [← h.left.cot, ← h.right.cot, h.eva]

/-- The bits sent for an opening, in terms of the labels of the evaluator. -/
theorem revealSend_eq (p : Party) (d : Block) (hd : lsb d = true) : ∀ (gl el : List Block) (vs : List Bool),
    List.Forall₂ (fun (x : Block × Block) v => WRel d x.1 x.2 v) (gl.zip el) vs → gl.length = el.length →
    genRevealSend p gl = if p = .alice then [] else ((el.zip vs).filter fun x => !isPublic x.1).map fun x => .bit (lsb x.1 != x.2) := by
  intro gl el vs h hl
  unfold genRevealSend
  split
  · rfl
  · induction gl generalizing el vs with
    | nil =>
      have : el = [] := List.length_eq_zero_iff.1 hl.symm
      subst this; rfl
    | cons g gl ih =>
      cases el with
      | nil => simp at hl
      | cons e el =>
        cases h with
        | cons h1 h2 =>
          rename_i v vs
          have := ih el vs h2 (by simpa using hl)
          simp only [List.zip_cons_cons, List.filter_cons, h1.pub_iff]
          cases hp : isPublic e with
          | true => simpa using this
          | false =>
            simp only [Bool.not_false, if_true, List.map_cons, this]
            congr 2
            have := h1.gen hp
            simp only at this
            rw [this, lsb_xor, lsb_sel _ _ hd]

theorem rel_wires {n : Net} {w : List Bool} (h : NetInv n w) (ws : List Nat) :
    List.Forall₂ (fun (x : Block × Block) v => WRel n.gen.delta x.1 x.2 v) ((ws.map n.gen.get).zip (ws.map n.eva.get)) (ws.map (Circuit.get w)) := by
  induction ws with
  | nil => exact .nil
  | cons i ws ih => exact .cons (h.rel i) ih

/-- The table of a gate with other values and the permutation changed for them. -/
theorem table_eq {E : Env} {P : Block → Block} {A B d : Block} (hd : lsb d = true) {va vb va' vb' : Bool} {k : Nat}
    (h1 : P (E.sigma A ^^^ tweak1 k) = E.perm (E.sigma A ^^^ tweak1 k)) (h2 : P (E.sigma B ^^^ tweak2 k) = E.perm (E.sigma B ^^^ tweak2 k))
    (h3 : P (E.sigma (A ^^^ d) ^^^ tweak1 k) = E.perm (E.sigma (A ^^^ d) ^^^ tweak1 k) ^^^ sel (vb != vb') d)
    (h4 : P (E.sigma (B ^^^ d) ^^^ tweak2 k) = E.perm (E.sigma (B ^^^ d) ^^^ tweak2 k) ^^^ sel (va != va') d) :
    (garble (withPerm E P) (A ^^^ sel va' d) (A ^^^ sel va' d ^^^ d) (B ^^^ sel vb' d) (B ^^^ sel vb' d ^^^ d) d k).2
      = (garble E (A ^^^ sel va d) (A ^^^ sel va d ^^^ d) (B ^^^ sel vb d) (B ^^^ sel vb d ^^^ d) d k).2 := by
  rw [garble_table _ _ _ _ hd, garble_table _ _ _ _ hd, h_same h1, h_same h2, h_withPerm h3, h_withPerm h4]
  have e1 : ∀ (x y : Block) (b v v' : Bool), x ^^^ (y ^^^ sel (v != v') d) ^^^ sel (b != v') d = x ^^^ y ^^^ sel (b != v) d := by
    intro x y b v v'
    rw [← BitVec.xor_assoc, BitVec.xor_assoc (x ^^^ y), sel_xor]
    congr 2; cases b <;> cases v <;> cases v' <;> rfl
  have e2 : ∀ (x y a : Block) (v v' : Bool), x ^^^ (y ^^^ sel (v != v') d) ^^^ (a ^^^ sel v' d) = x ^^^ y ^^^ (a ^^^ sel v d) := by
    intro x y a v v'
    have : x ^^^ (y ^^^ sel (v != v') d) ^^^ (a ^^^ sel v' d) = x ^^^ y ^^^ (a ^^^ (sel (v != v') d ^^^ sel v' d)) := by ac_rfl
    rw [this, sel_xor]
    congr 3; cases v <;> cases v' <;> rfl
  rw [e1, e2]

/-- The tables of a gate in the two runs. -/
theorem twin_table {E : Env} {P : Block → Block} {n n' : Net} {w w' : List Bool} (h : Twin n n' w w') {i j : Nat}
    (qi : isPublic (n.eva.get i) = false) (qj : isPublic (n.eva.get j) = false)
    (hk : ∀ x ∈ askedOp E n (.and i j), P x = E.perm x) (hp : ∀ x ∈ patchOp E n w w' (.and i j), P x.1 = E.perm x.1 ^^^ x.2) :
    (garble (withPerm E P) (n'.gen.get i) (n'.gen.get i ^^^ n'.gen.delta) (n'.gen.get j) (n'.gen.get j ^^^ n'.gen.delta) n'.gen.delta n'.gen.gid).2
      = (garble E (n.gen.get i) (n.gen.get i ^^^ n.gen.delta) (n.gen.get j) (n.gen.get j ^^^ n.gen.delta) n.gen.delta n.gen.gid).2 := by
  have gi' : n'.gen.get i = n.eva.get i ^^^ sel (Circuit.get w' i) n.gen.delta := by
    have := (h.right.rel i).gen (by rw [h.eva]; exact qi)
    rw [this, h.eva, h.delta]
  have gj' : n'.gen.get j = n.eva.get j ^^^ sel (Circuit.get w' j) n.gen.delta := by
    have := (h.right.rel j).gen (by rw [h.eva]; exact qj)
    rw [this, h.eva, h.delta]
  simp only [askedOp, patchOp, qi, qj, Bool.or_self, Bool.false_eq_true, if_false, List.mem_cons, List.not_mem_nil, or_false,
    forall_eq_or_imp, forall_eq] at hk hp
  rw [gi', gj', h.delta, h.gid, (h.left.rel i).gen qi, (h.left.rel j).gen qj]
  exact table_eq h.left.delta hk.1 hk.2 hp.1 hp.2

theorem evalGate_same {E : Env} {P : Block → Block} {A B : Block} {k : Nat} (t : Block × Block)
    (h1 : P (E.sigma A ^^^ tweak1 k) = E.perm (E.sigma A ^^^ tweak1 k)) (h2 : P (E.sigma B ^^^ tweak2 k) = E.perm (E.sigma B ^^^ tweak2 k)) :
    evalGate (withPerm E P) A B t k = evalGate E A B t k := by
  simp only [evalGate, h_same h1, h_same h2]

theorem genAnd_public {E : Env} {g : Gen} {a b : Block} (h : (isPublic a || isPublic b) = true) : (genAnd E g a b).2.2 = [] := by
  unfold genAnd
  split
  · rfl
  · split
    · rfl
    · split
      · rfl
      · rename_i h1 h2 h3
        simp only [isPublic] at h
        simp_all

theorem genAnd_secret {E : Env} {g : Gen} {a b : Block} (ha : isPublic a = false) (hb : isPublic b = false) :
    (genAnd E g a b).2.2 = [.blk (garble E a (a ^^^ g.delta) b (b ^^^ g.delta) g.delta g.gid).2.1,
      .blk (garble E a (a ^^^ g.delta) b (b ^^^ g.delta) g.delta g.gid).2.2] := by
  obtain ⟨a1, a2⟩ := isPublic_false ha
  obtain ⟨b1, b2⟩ := isPublic_false hb
  simp only [genAnd, a1, a2, b1, b2, Bool.or_self, Bool.false_eq_true, if_false]

theorem evaAnd_public {E E' : Env} {e : Eva} {a b : Block} (h : (isPublic a || isPublic b) = true) (q : List Msg) :
    evaAnd E e a b q = evaAnd E' e a b q := by
  have : (isZero a || isOne a || isZero b || isOne b) = true := by
    simp only [isPublic] at h
    simpa [Bool.or_assoc] using h
  simp only [evaAnd, this, if_true]

/-- One operation of the two runs: the evaluator receives the same and does the same. -/
theorem twin_op {E : Env} {P : Block → Block} {n n' : Net} {w w' : List Bool} (h : Twin n n' w w') {op op' : Op} (hb : blindA op = blindA op')
    (ha : Apart E n op) (hk : ∀ x ∈ askedOp E n op, P x = E.perm x) (hp : ∀ x ∈ patchOp E n w w' op, P x.1 = E.perm x.1 ^^^ x.2)
    (ho : toBob (Circuit.opened w [op]) = toBob (Circuit.opened w' [op'])) :
    Apart (withPerm E P) n' op' ∧ (n'.gen.send (withPerm E P) op').2 = (n.gen.send E op).2
      ∧ (∀ q, n.eva.step (withPerm E P) (cotM E n.gen.delta) E.cotR op' q = n.eva.step E (cotM E n.gen.delta) E.cotR op q)
      ∧ askedOp (withPerm E P) n' op' = askedOp E n op ∧ hiddenOp (withPerm E P) n' op' = hiddenOp E n op
      ∧ patchOp (withPerm E P) n' w' w op' = patchOp E n w w' op := by
  cases op with
  | inA b =>
    cases op' <;> simp only [blindA, reduceCtorEq] at hb
    refine ⟨?_, rfl, fun q => rfl, rfl, rfl, rfl⟩
    simp only [Apart, h.delta, h.prg] at ha ⊢
    exact ha
  | pub b =>
    cases op' <;> simp only [blindA, reduceCtorEq, Op.pub.injEq] at hb
    subst hb
    exact ⟨trivial, rfl, fun q => rfl, rfl, rfl, rfl⟩
  | inB b =>
    cases op' <;> simp only [blindA, reduceCtorEq, Op.inB.injEq] at hb
    subst hb
    refine ⟨?_, rfl, fun q => rfl, rfl, rfl, rfl⟩
    simp only [Apart, h.delta, h.cot] at ha ⊢
    exact ha
  | xor i j =>
    cases op' <;> simp only [blindA, reduceCtorEq, Op.xor.injEq] at hb
    obtain ⟨rfl, rfl⟩ := hb
    refine ⟨?_, rfl, fun q => rfl, rfl, rfl, rfl⟩
    simp only [Apart, h.delta, h.eva] at ha ⊢
    exact ha
  | not i =>
    cases op' <;> simp only [blindA, reduceCtorEq, Op.not.injEq] at hb
    subst hb
    exact ⟨trivial, rfl, fun q => rfl, rfl, rfl, rfl⟩
  | reveal p ws =>
    cases op' <;> simp only [blindA, reduceCtorEq, Op.reveal.injEq] at hb
    obtain ⟨rfl, rfl⟩ := hb
    refine ⟨trivial, ?_, fun q => rfl, rfl, rfl, rfl⟩
    simp only [Gen.send]
    have hd' : lsb n'.gen.delta = true := h.right.delta
    rw [revealSend_eq p _ hd' _ _ _ (rel_wires h.right.toNetInv ws) (by simp), revealSend_eq p _ h.left.delta _ _ _ (rel_wires h.left.toNetInv ws) (by simp)]
    by_cases hpa : p = .alice
    · rw [if_pos hpa, if_pos hpa]
    · rw [if_neg hpa, if_neg hpa, h.eva]
      have : ws.map (Circuit.get w) = ws.map (Circuit.get w') := by
        simpa [Circuit.opened, toBob, hpa] using ho
      rw [this]
  | and i j =>
    cases op' <;> simp only [blindA, reduceCtorEq, Op.and.injEq] at hb
    obtain ⟨rfl, rfl⟩ := hb
    have hpat : patchOp (withPerm E P) n' w' w (.and i j) = patchOp E n w w' (.and i j) := by
      have hbn : ∀ a b : Bool, (a != b) = (b != a) := by decide
      simp only [patchOp, h.eva, h.delta, h.gid, hbn (Circuit.get w' _)]; rfl
    have hask : askedOp (withPerm E P) n' (.and i j) = askedOp E n (.and i j) := by
      simp only [askedOp, h.eva, h.gid]; rfl
    have hhid : hiddenOp (withPerm E P) n' (.and i j) = hiddenOp E n (.and i j) := by
      simp only [hiddenOp, h.eva, h.delta, h.gid]; rfl
    cases hq : (isPublic (n.eva.get i) || isPublic (n.eva.get j)) with
    | true =>
      refine ⟨?_, ?_, ?_, hask, hhid, hpat⟩
      · intro a b
        rw [h.eva] at a b
        rw [a, b] at hq
        exact absurd hq (by decide)
      · simp only [Gen.send]
        rw [genAnd_public, genAnd_public]
        · rw [(h.left.rel i).pub_iff, (h.left.rel j).pub_iff]; exact hq
        · rw [(h.right.rel i).pub_iff, (h.right.rel j).pub_iff, h.eva]; exact hq
      · intro q
        simp only [Eva.step, evaAnd_public hq (E := withPerm E P) (E' := E)]
    | false =>
      have qi : isPublic (n.eva.get i) = false := by revert hq; cases isPublic (n.eva.get i) <;> simp
      have qj : isPublic (n.eva.get j) = false := by revert hq; cases isPublic (n.eva.get j) <;> simp
      have ht := twin_table h qi qj hk hp
      have hk' := hk
      simp only [askedOp, hq, Bool.false_eq_true, if_false, List.mem_cons, List.not_mem_nil, or_false, forall_eq_or_imp, forall_eq] at hk'
      have hev := fun t => evalGate_same (E := E) (P := P) t hk'.1 hk'.2
      refine ⟨?_, ?_, ?_, hask, hhid, hpat⟩
      · intro _ _
        rw [ht, h.gid, h.eva, h.delta, hev]
        exact ha qi qj
      · simp only [Gen.send]
        rw [genAnd_secret, genAnd_secret, ht]
        · rw [(h.left.rel i).pub_iff]; exact qi
        · rw [(h.left.rel j).pub_iff]; exact qj
        · rw [(h.right.rel i).pub_iff, h.eva]; exact qi
        · rw [(h.right.rel j).pub_iff, h.eva]; exact qj
      · intro q
        obtain ⟨a1, a2⟩ := isPublic_false qi
        obtain ⟨b1, b2⟩ := isPublic_false qj
        simp only [Eva.step, evaAnd, a1, a2, b1, b2, Bool.or_self, Bool.false_eq_true, if_false, bind, Except.bind]
        cases recvTable q with
        | error x => rfl
        | ok x =>
          simp only
          rw [h.left.gid, hev]

/-! ### Runs -/

theorem toBob_cons (w : List Bool) (op : Op) (ops : List Op) :
    toBob (Circuit.opened w (op :: ops)) = toBob (Circuit.opened w [op]) ++ toBob (Circuit.opened (Circuit.next w op) ops) := by
  rw [opened_cons, toBob, List.filter_append, List.map_append]; rfl

theorem toBob_length (w : List Bool) (op : Op) : ∀ w' op', blindA op = blindA op' →
    (toBob (Circuit.opened w [op])).length = (toBob (Circuit.opened w' [op'])).length := by
  intro w' op' hb
  cases op <;> cases op' <;> simp only [blindA, reduceCtorEq, Op.reveal.injEq] at hb <;> try rfl
  obtain ⟨rfl, rfl⟩ := hb
  rename_i p ws
  cases p <;> rfl

/-- The joint run, taken apart. -/
theorem step_ok {E : Env} {n n1 : Net} {op : Op} {o : Option (Party × List Bool × List Bool)} (h : n.step E op = .ok (o, n1)) :
    ∃ eb gb s, n.eva.step E (cotM E n.gen.delta) E.cotR op (n.toEva ++ (n.gen.send E op).2) = .ok (eb, n1.eva, n1.toEva, s)
      ∧ (n.gen.send E op).1.recv E op (n.toGen ++ s) = .ok (gb, n1.gen, n1.toGen) := by
  rw [step_parties] at h
  simp only [bind, Except.bind] at h
  cases h1 : n.eva.step E (cotM E n.gen.delta) E.cotR op (n.toEva ++ (n.gen.send E op).2) with
  | error x => rw [h1] at h; cases h
  | ok x =>
    obtain ⟨eb, e, q, s⟩ := x
    rw [h1] at h
    simp only at h
    cases h2 : (n.gen.send E op).1.recv E op (n.toGen ++ s) with
    | error x => rw [h2] at h; cases h
    | ok x =>
      obtain ⟨gb, g, q'⟩ := x
      rw [h2] at h
      cases h
      exact ⟨eb, gb, s, rfl, h2⟩

/-- Two runs with the values and the permutation changed: everything on the side of the evaluator is the same. -/
theorem twin_run {E : Env} {P : Block → Block} : ∀ (ops ops' : List Op) (n n' : Net) (w w' : List Bool), Twin n n' w w' →
    ops.map blindA = ops'.map blindA → toBob (Circuit.opened w ops) = toBob (Circuit.opened w' ops') → AllApart E n ops →
    (∀ x ∈ asked E n ops, P x = E.perm x) → (∀ x ∈ patch E n w w' ops ops', P x.1 = E.perm x.1 ^^^ x.2) →
    AllApart (withPerm E P) n' ops' ∧ asked (withPerm E P) n' ops' = asked E n ops ∧ hidden (withPerm E P) n' ops' = hidden E n ops
      ∧ patch (withPerm E P) n' w' w ops' ops = patch E n w w' ops ops'
      ∧ ∃ l m m' out, n.recordEva E ops = .ok (l, m) ∧ n'.recordEva (withPerm E P) ops' = .ok (l, m')
        ∧ n.eva.run E (cotM E n.gen.delta) E.cotR (ops.map blindA) l = .ok out
        ∧ n.eva.run (withPerm E P) (cotM E n.gen.delta) E.cotR (ops'.map blindA) l = .ok out := by
  intro ops
  induction ops with
  | nil =>
    intro ops' n n' w w' h hb ho ha hk hp
    cases ops' with
    | nil => exact ⟨trivial, rfl, rfl, rfl, [], n, n', _, rfl, rfl, rfl, rfl⟩
    | cons a b => simp at hb
  | cons op ops ih =>
    intro ops' n n' w w' h hb ho ha hk hp
    cases ops' with
    | nil => simp at hb
    | cons op' ops' =>
    simp only [List.map_cons, List.cons.injEq] at hb
    obtain ⟨hb1, hb2⟩ := hb
    rw [toBob_cons w op ops, toBob_cons w' op' ops'] at ho
    obtain ⟨ho1, ho2⟩ := List.append_inj ho (toBob_length w op w' op' hb1)
    obtain ⟨o, n1, e1, i1, d1⟩ := inv_step h.left ha.1
    have ha2 := ha.2 o n1 e1
    simp only [asked, points, e1] at hk
    simp only [patch, e1] at hp
    obtain ⟨t1, t2, t3, t4, t5, t6⟩ := twin_op (P := P) h hb1 ha.1 (fun x hx => hk x (List.mem_append_left _ hx))
      (fun x hx => hp x (List.mem_append_left _ hx)) ho1
    obtain ⟨o', n1', e1', i1', d1'⟩ := inv_step h.right t1
    obtain ⟨eb, gb, s, s1, s2⟩ := step_ok e1
    obtain ⟨eb', gb', s', s1', s2'⟩ := step_ok e1'
    have hs : n'.eva.step (withPerm E P) (cotM (withPerm E P) n'.gen.delta) (withPerm E P).cotR op' (n'.toEva ++ (n'.gen.send (withPerm E P) op').2)
        = n.eva.step E (cotM E n.gen.delta) E.cotR op (n.toEva ++ (n.gen.send E op).2) := by
      rw [h.eva, h.delta, t2, h.right.toEva, h.left.toEva]
      exact t3 _
    rw [hs, s1] at s1'
    simp only [Except.ok.injEq, Prod.mk.injEq] at s1'
    obtain ⟨_, x2, x3, rfl⟩ := s1'
    obtain ⟨r1, r2, r3, r4, l, m, m', out, r5, r6, r7, r8⟩ := ih ops' n1 n1' _ _ ⟨i1, i1', x2.symm, by rw [d1', d1, h.delta]⟩ hb2 ho2 ha2
      (fun x hx => hk x (List.mem_append_right _ hx)) (fun x hx => hp x (List.mem_append_right _ hx))
    rw [d1] at r7 r8
    have hq : n1.toEva = [] := i1.toEva
    have hq0 : n.toEva = [] := h.left.toEva
    have f1 := step_frame E _ _ _ op s1 l
    rw [hq0, hq, List.nil_append, List.nil_append] at f1
    have f2 := f1
    rw [← t3] at f2
    refine ⟨⟨t1, fun o2 n2 e2 => ?_⟩, ?_, ?_, ?_, (n.gen.send E op).2 ++ l, m, m', (eb.toList ++ out.1, out.2.1, out.2.2.1, s ++ out.2.2.2), ?_, ?_, ?_, ?_⟩
    · rw [e1'] at e2; cases e2; exact r1
    · simp only [asked, points, e1, e1'] at r2 ⊢
      rw [t4, r2]
    · simp only [hidden, points, e1, e1'] at r3 ⊢
      rw [t5, r3]
    · simp only [patch, e1, e1']
      rw [t6, r4]
    · simp only [Net.recordEva, s1, s2, bind, Except.bind]
      rw [r5]
    · simp only [Net.recordEva, hs, s1, bind, Except.bind]
      rw [x2, x3] at *
      rw [s2']
      simp only
      rw [r6, t2]
    · simp only [List.map_cons, Eva.run, step_blind, f1, bind, Except.bind, r7]
    · simp only [List.map_cons, Eva.run, step_blind, f2, bind, Except.bind, r8]

/-! ### The change of the permutation -/

/-- The entry of a list for a point, zero without one. -/
def entry (l : List (Block × Block)) (x : Block) : Block := ((l.find? fun p => p.1 == x).map (·.2)).getD 0

theorem entry_mem {l : List (Block × Block)} (hn : (l.map (·.1)).Nodup) {p : Block × Block} (hp : p ∈ l) : entry l p.1 = p.2 := by
  induction l with
  | nil => cases hp
  | cons a l ih =>
    simp only [List.map_cons, List.nodup_cons] at hn
    simp only [entry, List.find?_cons]
    rcases List.mem_cons.1 hp with rfl | hp
    · simp
    · have : (a.1 == p.1) = false := by
        simp only [beq_eq_false_iff_ne]
        intro e
        exact hn.1 (e ▸ List.mem_map_of_mem hp)
      rw [this]
      exact ih hn.2 hp

theorem entry_none {l : List (Block × Block)} {x : Block} (h : x ∉ l.map (·.1)) : entry l x = 0 := by
  have : l.find? (fun p => p.1 == x) = none := by
    rw [List.find?_eq_none]
    intro p hp
    simp only [beq_iff_eq]
    intro e
    exact h (e ▸ List.mem_map_of_mem hp)
  simp [entry, this]

theorem patch_points (E : Env) : ∀ (ops ops' : List Op) (n : Net) (w w' : List Bool), ops.length = ops'.length →
    (patch E n w w' ops ops').map (·.1) = hidden E n ops := by
  intro ops
  induction ops with
  | nil => intro ops' n w w' h; cases ops' <;> rfl
  | cons op ops ih =>
    intro ops' n w w' h
    cases ops' with
    | nil => simp at h
    | cons op' ops' =>
      simp only [patch, hidden, points, List.map_append]
      congr 1
      · cases op with
        | and i j => simp only [patchOp, hiddenOp]; split <;> rfl
        | _ => rfl
      · cases n.step E op with
        | error x => rfl
        | ok x => exact ih ops' _ _ _ (by simpa using h)

/-- The permutation of `E`, changed for the inputs of `ops'` instead of those of `ops`. -/
def repair (E : Env) (d : Block) (ops ops' : List Op) (x : Block) : Block := E.perm x ^^^ entry (patch E (start d) [] [] ops ops') x

/-- Everything the evaluator gets and makes of it: the messages it receives, the values it outputs, its labels, the messages it sends. -/
def view (E : Env) (d : Block) (ops : List Op) : Option (List Msg × List (List Bool) × Eva × List Msg × List Msg) :=
  match (start d).recordEva E ops with
  | .error _ => none
  | .ok (l, _) =>
    match (start d).eva.run E (cotM E (setDelta d)) E.cotR (ops.map blindA) l with
    | .error _ => none
    | .ok out => some (l, out)

/-- A run without coincidences. -/
def Good (E : Env) (d : Block) (ops : List Op) : Prop := AllApart E (start d) ops ∧ Fresh E (start d) ops

theorem start_clear (d : Block) : Inv (start d) [] := ⟨start_inv d, fun i => Or.inl (by simp [start, Eva.get]; decide)⟩

theorem private_core {E : Env} {d : Block} {ops ops' : List Op} (hb : ops.map blindA = ops'.map blindA)
    (ho : toBob (Circuit.opened [] ops) = toBob (Circuit.opened [] ops')) (hg : Good E d ops) :
    Good (withPerm E (repair E d ops ops')) d ops' ∧ (view E d ops).isSome ∧ view (withPerm E (repair E d ops ops')) d ops' = view E d ops
      ∧ repair (withPerm E (repair E d ops ops')) d ops' ops = E.perm := by
  have hl : ops.length = ops'.length := by simpa using congrArg List.length hb
  have hpp := patch_points E ops ops' (start d) [] [] hl
  obtain ⟨t1, t2, t3, t4, l, m, m', out, t5, t6, t7, t8⟩ := twin_run (E := E) (P := repair E d ops ops') ops ops' (start d) (start d) [] []
    ⟨start_clear d, start_clear d, rfl, rfl⟩ hb ho hg.1
    (by
      intro x hx
      have : x ∉ (patch E (start d) [] [] ops ops').map (·.1) := by
        rw [hpp]; intro h; exact hg.2.2 x h hx
      simp [repair, entry_none this])
    (by
      intro x hx
      rw [repair, entry_mem (by rw [hpp]; exact hg.2.1) hx])
  refine ⟨⟨t1, ?_⟩, ?_, ?_, ?_⟩
  · rw [Fresh, t2, t3]; exact hg.2
  · have t7' : (start d).eva.run E (cotM E (setDelta d)) E.cotR (ops.map blindA) l = .ok out := t7
    simp only [view, t5, t7', Option.isSome_some]
  · have t7' : (start d).eva.run E (cotM E (setDelta d)) E.cotR (ops.map blindA) l = .ok out := t7
    have t8' : (start d).eva.run (withPerm E (repair E d ops ops')) (cotM (withPerm E (repair E d ops ops')) (setDelta d))
      (withPerm E (repair E d ops ops')).cotR (ops'.map blindA) l = .ok out := t8
    simp only [view, t5, t6, t7', t8']
  · funext x
    simp only [repair, t4]
    rw [show (withPerm E (repair E d ops ops')).perm x = repair E d ops ops' x from rfl, repair, BitVec.xor_assoc, BitVec.xor_self, BitVec.xor_zero]

/-- **C62.**  Two programs that differ only in the inputs of ALICE and open the same values to BOB look the same to the evaluator: if no two points of the
permutation in the run of the one coincide, the run of the other with the changed permutation `repair` has no coincidences either, the evaluator receives the
same messages, holds the same labels, outputs and sends the same.  The change is undone by the change in the other direction. -/
theorem C62_private (E : Env) (d : Block) (ops ops' : List Op) (hb : ops.map blindA = ops'.map blindA)
    (ho : toBob (Circuit.opened [] ops) = toBob (Circuit.opened [] ops')) (hg : Good E d ops) :
    Good (withPerm E (repair E d ops ops')) d ops' ∧ (view E d ops).isSome ∧ view (withPerm E (repair E d ops ops')) d ops' = view E d ops
      ∧ repair (withPerm E (repair E d ops ops')) d ops' ops = E.perm := private_core hb ho hg

theorem points_form (E : Env) : ∀ (ops : List Op) (n : Net) (w : List Bool), Inv n w → AllApart E n ops → ∀ x ∈ hidden E n ops,
    ∃ L t, E.sigma L ^^^ t ∈ asked E n ops ∧ x = E.sigma (L ^^^ n.gen.delta) ^^^ t := by
  intro ops
  induction ops with
  | nil => intro n w _ _ x hx; cases hx
  | cons op ops ih =>
    intro n w h ha x hx
    obtain ⟨o, n1, e1, i1, d1⟩ := inv_step h ha.1
    simp only [hidden, asked, points, e1] at hx ⊢
    rcases List.mem_append.1 hx with hx | hx
    · cases op with
      | and i j =>
        simp only [hiddenOp] at hx
        split at hx
        · cases hx
        · rename_i hq
          simp only [List.mem_cons, List.not_mem_nil, or_false] at hx
          rcases hx with rfl | rfl
          · exact ⟨n.eva.get i, tweak1 n.gen.gid, by simp [askedOp, hq], rfl⟩
          · exact ⟨n.eva.get j, tweak2 n.gen.gid, by simp [askedOp, hq], rfl⟩
      | _ => cases hx
    · obtain ⟨L, t, a, b⟩ := ih n1 _ i1 (ha.2 o n1 e1) x hx
      rw [d1] at b
      exact ⟨L, t, List.mem_append_right _ a, b⟩

/-- **C62, where the change is.**  The permutation is changed only at points that come from a point the evaluator asked for by adding the offset to the label:
who does not know the offset of the garbler does not find them.  The evaluator itself asks for none of them. -/
theorem C62_change (E : Env) (d : Block) (ops ops' : List Op) (hb : ops.map blindA = ops'.map blindA) (hg : Good E d ops) (x : Block)
    (hx : repair E d ops ops' x ≠ E.perm x) :
    x ∉ asked E (start d) ops ∧ ∃ L t, E.sigma L ^^^ t ∈ asked E (start d) ops ∧ x = E.sigma (L ^^^ setDelta d) ^^^ t := by
  have hl : ops.length = ops'.length := by simpa using congrArg List.length hb
  have hpp := patch_points E ops ops' (start d) [] [] hl
  have hm : x ∈ hidden E (start d) ops := by
    rw [← hpp]
    apply Decidable.byContradiction
    intro h
    exact hx (by simp [repair, entry_none h])
  exact ⟨hg.2.2 x hm, points_form E ops (start d) [] (start_clear d) hg.1 x hm⟩

/-- A procedure that may ask for the permutation. -/
inductive Ask (α : Type) where
  | done (a : α)
  | ask (x : Block) (k : Block → Ask α)

/-- Its result. -/
def Ask.run {α : Type} (P : Block → Block) : Ask α → α
  | .done a => a
  | .ask x k => (k (P x)).run P

/-- The points it asks for. -/
def Ask.points {α : Type} (P : Block → Block) : Ask α → List Block
  | .done _ => []
  | .ask x k => x :: (k (P x)).points P

/-- **C62, distinguishers.**  Whatever is computed from the view of the evaluator with any further questions to the permutation: it comes out the same for both
inputs of ALICE, unless one of the questions is the sum of a label the evaluator holds and the offset. -/
theorem C62_distinguisher {α : Type} (E : Env) (d : Block) (ops ops' : List Op) (hb : ops.map blindA = ops'.map blindA)
    (ho : toBob (Circuit.opened [] ops) = toBob (Circuit.opened [] ops')) (hg : Good E d ops)
    (D : Option (List Msg × List (List Bool) × Eva × List Msg × List Msg) → Ask α)
    (hD : ∀ x ∈ (D (view E d ops)).points E.perm, ∀ L t, E.sigma L ^^^ t ∈ asked E (start d) ops → x ≠ E.sigma (L ^^^ setDelta d) ^^^ t) :
    (D (view (withPerm E (repair E d ops ops')) d ops')).run (repair E d ops ops') = (D (view E d ops)).run E.perm := by
  rw [(C62_private E d ops ops' hb ho hg).2.2.1]
  revert hD
  generalize D (view E d ops) = t
  intro hD
  induction t with
  | done a => rfl
  | ask x k ih =>
    have hx : repair E d ops ops' x = E.perm x := by
      apply Decidable.byContradiction
      intro hn
      obtain ⟨_, L, t, h1, h2⟩ := C62_change E d ops ops' hb hg x hn
      exact hD x List.mem_cons_self L t h1 h2
    simp only [Ask.run, hx]
    exact ih _ fun y hy => hD y (List.mem_cons_of_mem _ hy)

/-- **C62, distribution.**  Of the functions from blocks to blocks without coincidences, exactly as many give the evaluator a certain view for the one input of
ALICE as for the other. -/
theorem C62_distribution (E : Env) (d : Block) (ops ops' : List Op) (hb : ops.map blindA = ops'.map blindA)
    (ho : toBob (Circuit.opened [] ops) = toBob (Circuit.opened [] ops'))
    (v : Option (List Msg × List (List Bool) × Eva × List Msg × List Msg)) :
    Nat.card { P : Block → Block // Good (withPerm E P) d ops ∧ view (withPerm E P) d ops = v }
      = Nat.card { P : Block → Block // Good (withPerm E P) d ops' ∧ view (withPerm E P) d ops' = v } := by
  have key : ∀ (a b : List Op), a.map blindA = b.map blindA → toBob (Circuit.opened [] a) = toBob (Circuit.opened [] b) →
      ∀ P, Good (withPerm E P) d a → Good (withPerm E (repair (withPerm E P) d a b)) d b
        ∧ view (withPerm E (repair (withPerm E P) d a b)) d b = view (withPerm E P) d a
        ∧ repair (withPerm E (repair (withPerm E P) d a b)) d b a = P := by
    intro a b h1 h2 P hg
    obtain ⟨k1, _, k3, k4⟩ := C62_private (withPerm E P) d a b h1 h2 hg
    exact ⟨k1, k3, k4⟩
  refine Nat.card_congr ⟨fun P => ⟨repair (withPerm E P.1) d ops ops', ?_⟩, fun P => ⟨repair (withPerm E P.1) d ops' ops, ?_⟩, ?_, ?_⟩
  · obtain ⟨k1, k2, _⟩ := key ops ops' hb ho P.1 P.2.1
    exact ⟨k1, k2.trans P.2.2⟩
  · obtain ⟨k1, k2, _⟩ := key ops' ops hb.symm ho.symm P.1 P.2.1
    exact ⟨k1, k2.trans P.2.2⟩
  · intro P
    exact Subtype.ext (key ops ops' hb ho P.1 P.2.1).2.2
  · intro P
    exact Subtype.ext (key ops' ops hb.symm ho.symm P.1 P.2.1).2.2

/-! ### Examples -/

instance (d x : Block) : Decidable (Clear d x) := by unfold Clear; infer_instance

instance (E : Env) (n : Net) (op : Op) : Decidable (Apart E n op) := by
  cases op <;> unfold Apart <;> infer_instance

instance decAllApart (E : Env) : (ops : List Op) → (n : Net) → Decidable (AllApart E n ops)
  | [], _ => isTrue trivial
  | op :: ops, n =>
    match h : n.step E op with
    | .ok (o, n') =>
      have := decAllApart E ops n'
      if hc : Apart E n op ∧ AllApart E n' ops then
        isTrue ⟨hc.1, fun o2 n2 e => by rw [h] at e; cases e; exact hc.2⟩
      else isFalse fun k => hc ⟨k.1, k.2 o n' h⟩
    | .error x => if hc : Apart E n op then isTrue ⟨hc, fun _ _ e => by rw [h] at e; cases e⟩ else isFalse fun k => hc k.1

instance (E : Env) (n : Net) (ops : List Op) : Decidable (Fresh E n ops) :=
  @instDecidableAnd _ _ inferInstance (List.decidableBAll (fun x => x ∉ asked E n ops) (hidden E n ops))

instance (E : Env) (d : Block) (ops : List Op) : Decidable (Good E d ops) := by unfold Good; infer_instance

/-- ALICE holds two bits, BOB holds one; opened are `a ⊕ a'` to both, `a ∧ b` to ALICE and `a ∧ b ∧ a'` to BOB. -/
def exView (a a' b : Bool) : List Op :=
  [.inA a, .inA a', .inB b, .xor 0 1, .and 0 2, .and 4 1, .reveal .pub [3], .reveal .alice [4], .reveal .bob [5]]

/-- The inputs of ALICE differ, what BOB sees is the same; the hypotheses are met. -/
example : exView true false true ≠ exView false true true
    ∧ (exView true false true).map blindA = (exView false true true).map blindA
    ∧ toBob (Circuit.opened [] (exView true false true)) = toBob (Circuit.opened [] (exView false true true))
    ∧ toBob (Circuit.opened [] (exView true false true)) = [[true], [false]]
    ∧ Good exEnv 6 (exView true false true) ∧ (hidden exEnv (start 6) (exView true false true)).length = 4 := by
  refine ⟨by decide, by decide, by decide, by decide, by decide +kernel, by decide +kernel⟩

/-- Without the change of the permutation the views differ. -/
example : (view exEnv 6 (exView true false true)).map (·.1) ≠ (view exEnv 6 (exView false true true)).map (·.1) := by decide +kernel

end Verif.Props.EvaluatorView
