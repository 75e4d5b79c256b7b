import Verif.Lemmas.GC
import Verif.Model.OfflineGC
import Mathlib.Data.List.Forall2

/-! C16, C17, C19: garbled circuits. -/

namespace Verif.Props
open Verif.Model Verif.Model.GC Verif.Lemmas
open Verif.Spec.Circuit (Party Op)
open Verif.Spec

/-- **C16.**  For all labels, every offset with least significant bit one, every gate index, every permutation and
`sigma`: evaluating the garbled gate on the labels of `a` and `b` gives the label of `a AND b`. -/
theorem C16_halfgate (E : Env) (LA LB delta : Block) (hd : delta.getLsbD 0 = true) (idx : Nat) (a b : Bool) :
    let g := garble E LA (LA ^^^ delta) LB (LB ^^^ delta) delta idx
    evalGate E (if a then LA ^^^ delta else LA) (if b then LB ^^^ delta else LB) g.2 idx
      = if a && b then g.1 ^^^ delta else g.1 := by
  have h := halfgate E LA LB delta hd idx a b
  have hs : ∀ (x : Block) (c : Bool), (if c then x ^^^ delta else x) = x ^^^ sel c delta := by
    intro x c; cases c <;> simp [sel]
  simp only [hs]
  exact h

/-- `set_delta` always gives an offset with least significant bit one. -/
theorem C16_delta (d : Block) : (setDelta d).getLsbD 0 = true := by
  have : setDelta d = 1#128 ||| d := by unfold setDelta makeBlock; congr 1
  rw [this]; simp

/-- The least significant bit condition is needed. -/
theorem C16_delta_needed : ∃ (E : Env) (LA LB delta : Block) (a b : Bool),
    evalGate E (LA ^^^ sel a delta) (LB ^^^ sel b delta) (garble E LA (LA ^^^ delta) LB (LB ^^^ delta) delta 0).2 0
      ≠ (garble E LA (LA ^^^ delta) LB (LB ^^^ delta) delta 0).1 ^^^ sel (a && b) delta := by
  refine ⟨⟨fun x => x * x, id, fun _ => 0, fun _ => 0, fun _ => 0, fun _ => false, 0, 0, 0⟩, 3, 5, 2, true, false, ?_⟩
  decide

theorem tweak_eq (n m : Nat) (h : makeBlock (BitVec.ofNat 64 n) 0 = makeBlock (BitVec.ofNat 64 m) 0) (hn : n < 2 ^ 64) (hm : m < 2 ^ 64) : n = m := by
  have := congrArg (fun b : Block => b.toNat / 2 ^ 64) h
  simp only [makeBlock, BitVec.toNat_append, BitVec.toNat_ofNat, BitVec.ofNat_eq_ofNat] at this
  simpa [Nat.shiftLeft_eq, Nat.mod_eq_of_lt hn, Nat.mod_eq_of_lt hm] using this

/-- C16, the hash is never called twice with one tweak: the two tweaks of a gate differ from each other and from those of every
other gate (below `2^63` gates). -/
theorem C16_tweaks (i j : Nat) (hi : i < 2 ^ 63) (hj : j < 2 ^ 63) :
    tweak1 i ≠ tweak2 j ∧ (tweak1 i = tweak1 j → i = j) ∧ (tweak2 i = tweak2 j → i = j) := by
  refine ⟨fun h => ?_, fun h => ?_, fun h => ?_⟩
  all_goals
    have := tweak_eq _ _ h (by omega) (by omega)
    omega

/-- The tables that a sequence of `and_gate` calls of the garbler sends. -/
def genAnds (E : Env) : Gen → List (Block × Block) → List (Nat × List Msg) × Gen
  | g, [] => ([], g)
  | g, (a, b) :: l =>
    let r := genAnd E g a b
    let s := genAnds E r.2.1 l
    (if r.2.2 = [] then s.1 else (g.gid, r.2.2) :: s.1, s.2)

/-- C16: whatever the operands of a sequence of gates, the tables are those of half-gates with consecutive numbers, none used
twice. -/
theorem C16_numbers (E : Env) (g : Gen) (l : List (Block × Block)) :
    (genAnds E g l).1.map (·.1) = List.range' g.gid (genAnds E g l).1.length
      ∧ (genAnds E g l).2.gid = g.gid + (genAnds E g l).1.length
      ∧ ∀ x ∈ (genAnds E g l).1, ∃ a b, (a, b) ∈ l
          ∧ x.2 = [.blk (garble E a (a ^^^ g.delta) b (b ^^^ g.delta) g.delta x.1).2.1,
                   .blk (garble E a (a ^^^ g.delta) b (b ^^^ g.delta) g.delta x.1).2.2] := by
  induction l generalizing g with
  | nil => simp [genAnds]
  | cons p l ih =>
    obtain ⟨a, b⟩ := p
    have hc : ((genAnd E g a b).2.2 = [] ∧ (genAnd E g a b).2.1 = g)
        ∨ ((genAnd E g a b).2.1 = { g with gid := g.gid + 1 } ∧ (genAnd E g a b).2.2
          = [.blk (garble E a (a ^^^ g.delta) b (b ^^^ g.delta) g.delta g.gid).2.1,
             .blk (garble E a (a ^^^ g.delta) b (b ^^^ g.delta) g.delta g.gid).2.2]) := by
      unfold genAnd
      split
      · exact Or.inl ⟨rfl, rfl⟩
      · split
        · exact Or.inl ⟨rfl, rfl⟩
        · split
          · exact Or.inl ⟨rfl, rfl⟩
          · exact Or.inr ⟨rfl, rfl⟩
    rcases hc with ⟨h1, h2⟩ | ⟨h1, h2⟩
    · simp only [genAnds, h1, h2, if_true]
      obtain ⟨i1, i2, i3⟩ := ih g
      refine ⟨i1, i2, fun x hx => ?_⟩
      obtain ⟨a', b', m, e⟩ := i3 x hx
      exact ⟨a', b', List.mem_cons_of_mem _ m, e⟩
    · simp only [genAnds, h1, h2, List.cons_ne_nil, if_false]
      obtain ⟨i1, i2, i3⟩ := ih { g with gid := g.gid + 1 }
      refine ⟨?_, ?_, ?_⟩
      · rw [List.map_cons, i1, List.length_cons, List.range'_succ]
      · rw [i2, List.length_cons]; simp only; omega
      · intro x hx
        rcases List.mem_cons.mp hx with rfl | hx
        · exact ⟨a, b, List.mem_cons_self, rfl⟩
        · obtain ⟨a', b', m, e⟩ := i3 x hx
          exact ⟨a', b', List.mem_cons_of_mem _ m, e⟩

/-- No accidental label coincidence in one operation: a secret wire never gets the block of a constant, and the xor of
two secret wires is 0 or the offset for the garbler only if the evaluator sees equal labels. -/
def Clean (E : Env) (n : Net) : Op → Prop
  | .pub _ => True
  | .reveal _ _ => True
  | .inA b => isPublic (E.prg n.gen.prgPos ^^^ sel b n.gen.delta) = false ∧ isPublic (E.prg n.gen.prgPos) = false
  | .inB b => isPublic (E.cotK n.gen.cotPos ^^^ sel (E.cotR n.gen.cotPos != b) n.gen.delta) = false
      ∧ isPublic (E.cotK n.gen.cotPos ^^^ sel (E.cotR n.gen.cotPos) n.gen.delta) = false
  | .and i j =>
      let gi := n.gen.get i
      let gj := n.gen.get j
      let r := garble E gi (gi ^^^ n.gen.delta) gj (gj ^^^ n.gen.delta) n.gen.delta n.gen.gid
      isPublic gi = false → isPublic gj = false →
        isPublic r.1 = false ∧ isPublic (evalGate E (n.eva.get i) (n.eva.get j) r.2 n.gen.gid) = false
  | .xor i j =>
      ((isPublic (n.gen.get i) && isPublic (n.gen.get j)) = false →
        isPublic (genXor E n.gen.delta (n.gen.get i) (n.gen.get j)) = false
        ∧ isPublic (evaXor E (n.eva.get i) (n.eva.get j)) = false)
      ∧ (isPublic (n.gen.get i) = false → isPublic (n.gen.get j) = false →
        (n.gen.get i ^^^ n.gen.get j = 0 ∨ n.gen.get i ^^^ n.gen.get j = n.gen.delta) → n.eva.get i = n.eva.get j)
  | .not i => isPublic (n.gen.get i) = false → isPublic (genNot n.gen.delta (n.gen.get i)) = false

/-- No accidental label coincidence in a run. -/
def NoCoincidence (E : Env) (n : Net) : List Op → Prop
  | [] => True
  | op :: ops => Clean E n op ∧ ∀ o n', n.step E op = .ok (o, n') → NoCoincidence E n' ops

/-- The state of an execution whose wires have plain values `w`. -/
structure NetInv (n : Net) (w : List Bool) : Prop where
  delta : lsb n.gen.delta = true
  gid : n.eva.gid = n.gen.gid
  prg : n.eva.prgPos = n.gen.prgPos
  cot : n.eva.cotPos = n.gen.cotPos
  toEva : n.toEva = []
  toGen : n.toGen = []
  glen : n.gen.wires.length = w.length
  elen : n.eva.wires.length = w.length
  rel : ∀ i, WRel n.gen.delta (n.gen.get i) (n.eva.get i) (Circuit.get w i)

theorem NetInv.push {n : Net} {w : List Bool} (h : NetInv n w) {g' : Gen} {e' : Eva} {lg le : Block} {v : Bool}
    (hr : WRel n.gen.delta lg le v) (h1 : g'.delta = n.gen.delta) (h2 : g'.wires = n.gen.wires)
    (h3 : e'.wires = n.eva.wires) (h4 : e'.gid = g'.gid) (h5 : e'.prgPos = g'.prgPos) (h6 : e'.cotPos = g'.cotPos) :
    NetInv { n with gen := g'.push lg, eva := e'.push le } (w ++ [v]) := by
  refine ⟨by rw [← h.delta, ← h1]; rfl, h4, h5, h6, h.toEva, h.toGen,
    by simp [Gen.push, h2, h.glen], by simp [Eva.push, h3, h.elen], ?_⟩
  intro i
  have hd : (g'.push lg).delta = n.gen.delta := h1
  have := h.rel i
  simp only [Gen.get, Eva.get, Circuit.get, Gen.push, Eva.push, h1, h2, h3] at this ⊢
  by_cases hi : i < w.length
  · have e1 : (n.gen.wires ++ [lg]).getD i zeroB = n.gen.wires.getD i zeroB := by
      simp only [List.getD_eq_getElem?_getD]
      rw [List.getElem?_append_left (by rw [h.glen]; exact hi)]
    have e2 : (n.eva.wires ++ [le]).getD i zeroB = n.eva.wires.getD i zeroB := by
      simp only [List.getD_eq_getElem?_getD]
      rw [List.getElem?_append_left (by rw [h.elen]; exact hi)]
    have e3 : (w ++ [v]).getD i false = w.getD i false := by
      simp only [List.getD_eq_getElem?_getD]
      rw [List.getElem?_append_left hi]
    rw [e1, e2, e3]; exact this
  · by_cases hi2 : i = w.length
    · have e1 : (n.gen.wires ++ [lg]).getD i zeroB = lg := by
        simp only [List.getD_eq_getElem?_getD]
        rw [hi2, ← h.glen]; simp
      have e2 : (n.eva.wires ++ [le]).getD i zeroB = le := by
        simp only [List.getD_eq_getElem?_getD]
        rw [hi2, ← h.elen]; simp
      have e3 : (w ++ [v]).getD i false = v := by
        simp only [List.getD_eq_getElem?_getD]
        rw [hi2]; simp
      rw [e1, e2, e3]; exact hr
    · have e1 : (n.gen.wires ++ [lg]).getD i zeroB = zeroB := by
        simp only [List.getD_eq_getElem?_getD]
        rw [List.getElem?_eq_none (by simp [h.glen]; omega)]; rfl
      have e2 : (n.eva.wires ++ [le]).getD i zeroB = zeroB := by
        simp only [List.getD_eq_getElem?_getD]
        rw [List.getElem?_eq_none (by simp [h.elen]; omega)]; rfl
      have e3 : (w ++ [v]).getD i false = false := by
        simp only [List.getD_eq_getElem?_getD]
        rw [List.getElem?_eq_none (by simp; omega)]; rfl
      rw [e1, e2, e3]; left; exact ⟨rfl, rfl⟩

/-- What a reveal must give to the two parties: the receiver gets the values. -/
def RevealOk (out : Party × List Bool × List Bool) (want : Party × List Bool) : Prop :=
  out.1 = want.1
    ∧ (out.1 ≠ .bob → out.2.1 = want.2)
    ∧ (out.1 ≠ .alice → out.2.2 = want.2)

theorem pub_isPublic (v : Bool) : isPublic (publicLabel v) = true := by cases v <;> decide

theorem evaAnd_left (E : Env) (e : Eva) (v : Bool) (b : Block) (q : List Msg) :
    evaAnd E e (publicLabel v) b q = .ok (if v then b else zeroB, e, q) := by
  cases v
  · simp [evaAnd, publicLabel, show isZero zeroB = true from by decide]; simp [zeroB]
  · simp [evaAnd, publicLabel, show isOne oneB = true from by decide]; exact BitVec.allOnes_and

theorem evaAnd_right (E : Env) (e : Eva) (v : Bool) (a : Block) (q : List Msg) :
    evaAnd E e a (publicLabel v) q = .ok (if v then a else zeroB, e, q) := by
  cases v
  · simp [evaAnd, publicLabel, show isZero zeroB = true from by decide]; simp [zeroB]
  · simp [evaAnd, publicLabel, show isOne oneB = true from by decide]; exact BitVec.and_allOnes

theorem sel_if (x d : Block) (c : Bool) : (if c then x ^^^ d else x) = x ^^^ sel c d := by cases c <;> simp [sel]

theorem net_step (E : Env) (n : Net) (w : List Bool) (op : Op) (h : NetInv n w) (hc : Clean E n op) :
    ∃ o n', n.step E op = .ok (o, n') ∧ NetInv n' (Circuit.next w op)
      ∧ List.Forall₂ RevealOk o.toList (Circuit.opened w [op]) := by
  cases op with
  | pub b =>
    refine ⟨none, _, rfl, ?_, .nil⟩
    exact h.push (Or.inl ⟨rfl, rfl⟩) rfl rfl rfl h.gid h.prg h.cot
  | inA b =>
    refine ⟨none, _, rfl, ?_, .nil⟩
    refine h.push (g' := { n.gen with prgPos := n.gen.prgPos + 1 }) (e' := { n.eva with prgPos := n.eva.prgPos + 1 })
      (v := b) (Or.inr ?_) rfl rfl rfl h.gid (by show _ + 1 = _ + 1; rw [h.prg]) h.cot
    obtain ⟨c1, c2⟩ := hc
    rw [h.prg, sel_if]
    refine ⟨c1, c2, ?_⟩
    rw [BitVec.xor_assoc, sel_xor]; simp [sel]
  | inB b =>
    obtain ⟨c1, c2⟩ := hc
    refine ⟨none,
      { n with
        gen := Gen.push { n.gen with cotPos := n.gen.cotPos + 1 }
          (if (E.cotR n.eva.cotPos != b) then E.cotK n.gen.cotPos ^^^ n.gen.delta else E.cotK n.gen.cotPos)
        eva := Eva.push { n.eva with cotPos := n.eva.cotPos + 1 }
          (E.cotK n.eva.cotPos ^^^ sel (E.cotR n.eva.cotPos) n.gen.delta)
        toGen := [] }, ?_, ?_, .nil⟩
    · simp only [Net.step, h.toGen, List.nil_append, recvBit, bind, Except.bind]
    · have := h.push (g' := { n.gen with cotPos := n.gen.cotPos + 1 }) (e' := { n.eva with cotPos := n.eva.cotPos + 1 })
        (v := b) (lg := if (E.cotR n.eva.cotPos != b) then E.cotK n.gen.cotPos ^^^ n.gen.delta else E.cotK n.gen.cotPos)
        (le := E.cotK n.eva.cotPos ^^^ sel (E.cotR n.eva.cotPos) n.gen.delta) (Or.inr ?_) rfl rfl rfl h.gid h.prg
        (by show _ + 1 = _ + 1; rw [h.cot])
      · have h6 := h.toGen
        rw [← h6]; exact this
      · rw [h.cot, sel_if]
        refine ⟨c1, c2, ?_⟩
        rw [BitVec.xor_assoc, sel_xor]; congr 2; cases E.cotR n.gen.cotPos <;> cases b <;> rfl
  | xor i j =>
    obtain ⟨c1, c2⟩ := hc
    refine ⟨none, _, rfl, ?_, .nil⟩
    exact h.push ((h.rel i).xor (h.rel j) c1 c2) rfl rfl rfl h.gid h.prg h.cot
  | not i =>
    refine ⟨none, _, rfl, ?_, .nil⟩
    exact h.push ((h.rel i).not hc) rfl rfl rfl h.gid h.prg h.cot
  | and i j =>
    have ri := h.rel i
    have rj := h.rel j
    -- constant cases
    by_cases hcase : isPublic (n.gen.get i) = false ∧ isPublic (n.gen.get j) = false
    · obtain ⟨pi, pj⟩ := hcase
      obtain ⟨c1, c2⟩ := hc pi pj
      have ri : isPublic (n.eva.get i) = false ∧ n.eva.get i = n.gen.get i ^^^ sel (Circuit.get w i) n.gen.delta := by
        rcases ri with ⟨a, _⟩ | ⟨_, b, c⟩
        · rw [a, pub_isPublic] at pi; exact absurd pi (by decide)
        · exact ⟨b, c⟩
      have rj : isPublic (n.eva.get j) = false ∧ n.eva.get j = n.gen.get j ^^^ sel (Circuit.get w j) n.gen.delta := by
        rcases rj with ⟨a, _⟩ | ⟨_, b, c⟩
        · rw [a, pub_isPublic] at pj; exact absurd pj (by decide)
        · exact ⟨b, c⟩
      obtain ⟨a1, a2⟩ := isPublic_false pi
      obtain ⟨b1, b2⟩ := isPublic_false pj
      obtain ⟨d1, d2⟩ := isPublic_false ri.1
      obtain ⟨e1, e2⟩ := isPublic_false rj.1
      refine ⟨none, _, ?_, h.push (g' := { n.gen with gid := n.gen.gid + 1 }) (e' := { n.eva with gid := n.eva.gid + 1 })
        (v := Circuit.get w i && Circuit.get w j)
        (lg := (garble E (n.gen.get i) (n.gen.get i ^^^ n.gen.delta) (n.gen.get j) (n.gen.get j ^^^ n.gen.delta) n.gen.delta n.gen.gid).1)
        (le := evalGate E (n.eva.get i) (n.eva.get j) (garble E (n.gen.get i) (n.gen.get i ^^^ n.gen.delta) (n.gen.get j) (n.gen.get j ^^^ n.gen.delta) n.gen.delta n.gen.gid).2 n.gen.gid)
        (Or.inr ⟨c1, c2, ?_⟩) rfl rfl rfl (by show _ + 1 = _ + 1; rw [h.gid]) h.prg h.cot, .nil⟩
      · simp only [Net.step, genAnd, evaAnd, a1, a2, b1, b2, d1, d2, e1, e2, Bool.or_self, Bool.false_eq_true, if_false,
          h.toEva, List.nil_append, recvTable, bind, Except.bind, h.gid]
      · have := halfgate E (n.gen.get i) (n.gen.get j) n.gen.delta h.delta n.gen.gid (Circuit.get w i) (Circuit.get w j)
        rw [← ri.2, ← rj.2] at this
        exact this
    · have key : ∃ lg le, genAnd E n.gen (n.gen.get i) (n.gen.get j) = (lg, n.gen, [])
          ∧ evaAnd E n.eva (n.eva.get i) (n.eva.get j) [] = .ok (le, n.eva, [])
          ∧ WRel n.gen.delta lg le (Circuit.get w i && Circuit.get w j) := by
        rcases ri with ⟨a, b⟩ | ⟨p1, p2, p3⟩
        · rw [a, b]
          cases hv : Circuit.get w i with
          | false =>
            refine ⟨zeroB, zeroB, by simp [genAnd, publicLabel], ?_, Or.inl ⟨rfl, rfl⟩⟩
            rw [evaAnd_left]; rfl
          | true =>
            rcases rj with ⟨a', b'⟩ | ⟨q1, q2, q3⟩
            · rw [a', b']
              refine ⟨publicLabel (Circuit.get w j), publicLabel (Circuit.get w j), ?_, ?_, Or.inl ⟨by simp, by simp⟩⟩
              · cases Circuit.get w j <;> simp [genAnd, publicLabel]
              · rw [evaAnd_left]; rfl
            · obtain ⟨b1, b2⟩ := isPublic_false q1
              obtain ⟨c1, c2⟩ := isPublic_false q2
              refine ⟨n.gen.get j, n.eva.get j, ?_, ?_, Or.inr ⟨q1, q2, by simpa using q3⟩⟩
              · simp [genAnd, publicLabel, b1]
              · rw [evaAnd_left]; rfl
        · rcases rj with ⟨a', b'⟩ | ⟨q1, q2, q3⟩
          · rw [a', b']
            obtain ⟨b1, b2⟩ := isPublic_false p1
            obtain ⟨c1, c2⟩ := isPublic_false p2
            cases hv : Circuit.get w j with
            | false =>
              refine ⟨zeroB, zeroB, by simp [genAnd, publicLabel], ?_, Or.inl ⟨by simp [publicLabel], by simp [publicLabel]⟩⟩
              rw [evaAnd_right]; rfl
            | true =>
              refine ⟨n.gen.get i, n.eva.get i, ?_, ?_, Or.inr ⟨p1, p2, by simpa using p3⟩⟩
              · simp [genAnd, publicLabel, b1, b2]
              · rw [evaAnd_right]; rfl
          · exact absurd ⟨p1, q1⟩ hcase
      obtain ⟨lg, le, e1, e2, e3⟩ := key
      refine ⟨none, _, ?_, h.push (v := Circuit.get w i && Circuit.get w j) e3 rfl rfl rfl h.gid h.prg h.cot, .nil⟩
      simp only [Net.step, e1, h.toEva, List.nil_append, e2, bind, Except.bind]
  | reveal p ws =>
    have hrel : ∀ i (h1 : i < (ws.map n.gen.get).length) (h2 : i < (ws.map n.eva.get).length)
        (h3 : i < (ws.map (Circuit.get w)).length),
        WRel n.gen.delta (ws.map n.gen.get)[i] (ws.map n.eva.get)[i] (ws.map (Circuit.get w))[i] := by
      intro i h1 h2 h3
      simp only [List.getElem_map]
      exact h.rel _
    obtain ⟨eb, s, e1, e2, e3, e4⟩ := evaRevealLoop_spec p n.gen.delta h.delta (ws.map n.gen.get) (ws.map n.eva.get)
      (ws.map (Circuit.get w)) [] (by simp) (by simp) hrel
    have hopen := genOpenBlocks_spec n.gen.delta (ws.map n.gen.get) (ws.map n.eva.get)
      (ws.map (Circuit.get w)) (by simp) (by simp) hrel
    rw [List.append_nil] at e1
    by_cases hp : p = .pub
    · subst hp
      have hb := e2 (by simp)
      subst hb
      obtain ⟨gb, f1, _⟩ := e4 [.bits (ws.map (Circuit.get w)), .dig (E.hash (ws.map n.eva.get))]
      refine ⟨some (.pub, ws.map (Circuit.get w), ws.map (Circuit.get w)), n, ?_, by simpa [Circuit.next, Circuit.newWire] using h, ?_⟩
      · simp only [Net.step, h.toEva, h.toGen, List.nil_append, e1, if_true, f1, genPublicCheck, recvBits, recvDig,
          bind, Except.bind, hopen, List.length_map, ne_eq, not_true_eq_false, if_false]
        obtain ⟨g, e, te, tg⟩ := n
        have a1 := h.toEva
        have a2 := h.toGen
        simp only at a1 a2
        subst a1 a2
        rfl
      · exact .cons ⟨rfl, fun _ => rfl, fun _ => rfl⟩ .nil
    · obtain ⟨gb, f1, f2⟩ := e4 []
      rw [List.append_nil] at f1
      refine ⟨some (p, gb, eb), n, ?_, by simpa [Circuit.next, Circuit.newWire] using h, ?_⟩
      · simp only [Net.step, h.toEva, h.toGen, List.nil_append, e1, hp, if_false, List.append_nil, f1, bind, Except.bind]
        obtain ⟨g, e, te, tg⟩ := n
        have a1 := h.toEva
        have a2 := h.toGen
        simp only at a1 a2
        subst a1 a2
        rfl
      · refine .cons ⟨rfl, fun hb => f2 ?_, fun ha => e2 ha⟩ .nil
        cases p <;> simp_all

theorem opened_cons (w : List Bool) (op : Op) (ops : List Op) :
    Circuit.opened w (op :: ops) = Circuit.opened w [op] ++ Circuit.opened (Circuit.next w op) ops := by
  cases op <;> simp [Circuit.opened, Circuit.next, Circuit.newWire]

theorem net_run (E : Env) (ops : List Op) : ∀ (n : Net) (w : List Bool), NetInv n w → NoCoincidence E n ops →
    ∃ os n', n.run E ops = .ok (os, n') ∧ List.Forall₂ RevealOk os (Circuit.opened w ops)
      ∧ n'.toEva = [] ∧ n'.toGen = [] ∧ n'.eva.gid = n'.gen.gid := by
  induction ops with
  | nil => intro n w h _; exact ⟨[], n, rfl, .nil, h.toEva, h.toGen, h.gid⟩
  | cons op ops ih =>
    intro n w h hc
    obtain ⟨o, n1, e1, h1, r1⟩ := net_step E n w op h hc.1
    obtain ⟨os, n', e2, r2, q⟩ := ih n1 _ h1 (hc.2 o n1 e1)
    refine ⟨o.toList ++ os, n', by simp only [Net.run, e1, e2, bind, Except.bind], ?_, q⟩
    rw [opened_cons]
    exact List.rel_append r1 r2

/-- **C17.**  For every program, all inputs, all hash functions, permutations, label streams and correlated OTs: the two
parties never get out of step (all messages are consumed, both have used the same gate numbers), and every reveal
gives the plaintext values to the parties entitled to them — ALICE and BOB both for PUBLIC — provided no accidental
label coincidence happens. -/
theorem C17_execution (E : Env) (d : Block) (ops : List Op)
    (hc : NoCoincidence E { gen := { delta := setDelta d }, eva := {} } ops) :
    ∃ os n', Net.run E { gen := { delta := setDelta d }, eva := {} } ops = .ok (os, n')
      ∧ List.Forall₂ RevealOk os (Circuit.opened [] ops) ∧ n'.toEva = [] ∧ n'.toGen = [] ∧ n'.eva.gid = n'.gen.gid := by
  apply net_run E ops _ [] _ hc
  refine ⟨C16_delta d, rfl, rfl, rfl, rfl, rfl, rfl, rfl, fun i => Or.inl ⟨?_, ?_⟩⟩
  · simp [Gen.get, Circuit.get, publicLabel]
  · simp [Eva.get, Circuit.get, publicLabel]

instance (E : Env) (n : Net) (op : Op) : Decidable (Clean E n op) := by
  cases op <;> unfold Clean <;> infer_instance

instance decNoCoincidence (E : Env) : (ops : List Op) → (n : Net) → Decidable (NoCoincidence E n ops)
  | [], _ => isTrue trivial
  | op :: ops, n =>
    match h : n.step E op with
    | .ok (o, n') =>
      have := decNoCoincidence E ops n'
      if hc : Clean E n op ∧ NoCoincidence E n' ops then
        isTrue ⟨hc.1, fun o2 n2 e => by rw [h] at e; cases e; exact hc.2⟩
      else isFalse fun k => hc ⟨k.1, k.2 o n' h⟩
    | .error x => if hc : Clean E n op then isTrue ⟨hc, fun _ _ e => by rw [h] at e; cases e⟩ else isFalse fun k => hc k.1

/-- A concrete environment. -/
def exEnv : Env :=
  ⟨fun x => x * 0x9E3779B97F4A7C15F39CC0605CEDC835#128 + 0xD1B54A32D192ED03#128, fun x => x, fun l => (l.map (·.toNat)).sum,
    fun i => BitVec.ofNat 128 (0x9E3779B97F4A7C15F39CC0605CEDC8 * (3 * i + 1)),
    fun i => BitVec.ofNat 128 (0xBF58476D1CE4E5B994D049BB133111 * (5 * i + 2)),
    fun i => i % 2 == 0, 0x123456789ABCDEF0123456789ABCDEF1#128, 0x1111#128, 0x2222#128⟩

/-- A program using every operation. -/
def exOps (a b : Bool) : List Op :=
  [.inA a, .inB b, .pub true, .pub false, .and 0 1, .xor 0 1, .not 4, .and 2 5, .xor 0 0, .and 6 7, .xor 9 2,
   .reveal .alice [4, 5, 2], .reveal .bob [6, 7, 3], .reveal .pub [4, 8, 9, 10, 2]]

/-- The hypothesis of `C17_execution` is met by a program using every operation, for all inputs. -/
example : ∀ a b, NoCoincidence exEnv { gen := { delta := setDelta 0xFEDCBA9876543210FEDCBA9876543210#128 }, eva := {} }
    (exOps a b) := by
  decide +kernel

/-! ### Public openings -/

theorem xor_ne_delta (delta x : Block) (v b : Bool) (h : b ≠ v) :
    x ^^^ sel b delta = x ^^^ sel (!v) delta := by
  cases b <;> cases v <;> simp_all

/-- **C19**, online backend: whatever bits and digest the evaluator sends — the digest of any list `L` of blocks —
if the garbler accepts, its output is the true bits of all wires, or the evaluator's list and the garbler's list are a
hash collision, or one of the evaluator's blocks is the other label of a wire, i.e. not the one it got. -/
theorem C19_online (E : Env) (delta : Block) (gl : List Block) (vs : List Bool)
    (hv : vs.length = gl.length) (b : List Bool) (L : List Block) (q : List Msg) (out : List Bool) (q' : List Msg)
    (hacc : onPublicCheck E delta gl (.bits b :: .dig (E.hash L) :: q) = .ok (out, q')) :
    out = vs
    ∨ (∃ L', L' = List.zipWith (fun l b => if b then l ^^^ delta else l) gl out ∧ L' ≠ L ∧ E.hash L' = E.hash L)
    ∨ (∃ (i : Nat) (x : Block) (v : Bool), gl[i]? = some x ∧ vs[i]? = some v ∧ L[i]? = some (x ^^^ sel (!v) delta)) := by
  simp only [onPublicCheck, recvBits, recvDig, bind, Except.bind] at hacc
  split at hacc
  · cases hacc
  · rename_i h1
    split at hacc
    · cases hacc
    · rename_i hh
      have hbo : out = b := by cases hacc; rfl
      subst hbo
      simp only [ne_eq, not_not] at h1 hh
      by_cases hL : List.zipWith (fun l b => if b then l ^^^ delta else l) gl out = L
      · by_cases ho : out = vs
        · exact Or.inl ho
        · refine Or.inr (Or.inr ?_)
          obtain ⟨i, hi, hne⟩ : ∃ i, ∃ (h : i < gl.length), out[i]'(by omega) ≠ vs[i]'(by omega) := by
            by_contra hcon
            apply ho
            apply List.ext_getElem (by omega)
            intro i a c
            by_contra hne
            exact hcon ⟨i, by omega, hne⟩
          refine ⟨i, gl[i], vs[i]'(by omega), List.getElem?_eq_getElem hi, List.getElem?_eq_getElem _, ?_⟩
          rw [← hL, List.getElem?_zipWith, List.getElem?_eq_getElem hi, List.getElem?_eq_getElem (by omega)]
          simp only [sel_if]
          rw [xor_ne_delta _ _ _ _ hne]
      · exact Or.inr (Or.inl ⟨_, rfl, hL, hh⟩)

/-- **C19** for the optimised backend: the same on all wires that are not public constants.  What is missing: the
bits of public constant wires, see `C19_constant_wires_unauthenticated`. -/
theorem C19_opt_partial (E : Env) (delta : Block) (gl : List Block) (vs : List Bool)
    (hv : vs.length = gl.length) (b : List Bool) (L : List Block) (q : List Msg) (out : List Bool) (q' : List Msg)
    (hacc : genPublicCheck E delta gl (.bits b :: .dig (E.hash L) :: q) = .ok (out, q')) :
    (out.length = gl.length ∧ ∀ (i : Nat) (x : Block), gl[i]? = some x → isPublic x = false → out[i]? = vs[i]?)
    ∨ (∃ L', L' = genOpenBlocks delta gl out ∧ L' ≠ L ∧ E.hash L' = E.hash L)
    ∨ (∃ (i : Nat) (x : Block) (v : Bool), gl[i]? = some x ∧ isPublic x = false ∧ vs[i]? = some v ∧ L[i]? = some (x ^^^ sel (!v) delta)) := by
  simp only [genPublicCheck, recvBits, recvDig, bind, Except.bind] at hacc
  split at hacc
  · cases hacc
  · rename_i h1
    split at hacc
    · cases hacc
    · rename_i hh
      have hbo : out = b := by cases hacc; rfl
      subst hbo
      simp only [ne_eq, not_not] at h1 hh
      by_cases hL : genOpenBlocks delta gl out = L
      · by_cases ho : ∀ (i : Nat) (x : Block), gl[i]? = some x → isPublic x = false → out[i]? = vs[i]?
        · exact Or.inl ⟨h1, ho⟩
        · refine Or.inr (Or.inr ?_)
          simp only [not_forall] at ho
          obtain ⟨i, x, hx, hp, hne⟩ := ho
          obtain ⟨hi, rfl⟩ := List.getElem?_eq_some_iff.mp hx
          rw [List.getElem?_eq_getElem (by omega), List.getElem?_eq_getElem (by omega)] at hne
          refine ⟨i, gl[i], vs[i]'(by omega), List.getElem?_eq_getElem hi, hp, List.getElem?_eq_getElem _, ?_⟩
          rw [← hL, genOpenBlocks, List.getElem?_zipWith, List.getElem?_eq_getElem hi, List.getElem?_eq_getElem (by omega)]
          simp only [hp, Bool.false_eq_true, if_false, sel_if]
          rw [xor_ne_delta _ _ _ _ (fun h => hne (by rw [h]))]
      · exact Or.inr (Or.inl ⟨_, rfl, hL, hh⟩)

/-- The optimised backend does not authenticate the bits of public constant wires: the garbler accepts *any* bits
for them, together with the honest hash, for every hash function. -/
theorem C19_constant_wires_unauthenticated (E : Env) (delta : Block) (gl : List Block) (vs forged : List Bool)
    (hv : vs.length = gl.length) (hf : forged.length = gl.length)
    (hsecret : ∀ (i : Nat) (x : Block), gl[i]? = some x → isPublic x = false → forged[i]? = vs[i]?) :
    genPublicCheck E delta gl [.bits forged, .dig (E.hash (genOpenBlocks delta gl vs))] = .ok (forged, []) := by
  have : genOpenBlocks delta gl forged = genOpenBlocks delta gl vs := by
    apply List.ext_getElem?
    intro i
    simp only [genOpenBlocks, List.getElem?_zipWith]
    by_cases hi : i < gl.length
    · have hs := hsecret i gl[i] (List.getElem?_eq_getElem hi)
      rw [List.getElem?_eq_getElem hi, List.getElem?_eq_getElem (l := forged) (by omega),
        List.getElem?_eq_getElem (l := vs) (by omega)] at *
      by_cases hp : isPublic gl[i] = true
      · simp [hp]
      · have hp : isPublic gl[i] = false := by simpa using hp
        have := Option.some.inj (hs hp)
        simp [this]
    · rw [List.getElem?_eq_none (by omega)]
  simp [genPublicCheck, recvBits, recvDig, bind, Except.bind, hf, this]

/-- Such wires arise: the and of a private bit with the constant zero. -/
example : ∃ n, Net.run exEnv { gen := { delta := setDelta 6 }, eva := {} } [.inA true, .pub false, .and 0 1] = .ok ([], n)
    ∧ isPublic (n.gen.get 2) = true := ⟨_, rfl, by decide⟩

/-- A forged opening of such a wire, and an honest one of a secret wire, are accepted. -/
example : genPublicCheck exEnv 7 [zeroB, 12] [.bits [true, true], .dig (exEnv.hash [0, 11])] = .ok ([true, true], []) := by
  decide +kernel

example : onPublicCheck exEnv 7 [10, 12] [.bits [false, true], .dig (exEnv.hash [10, 11])] = .ok ([false, true], []) := by
  decide +kernel

end Verif.Props
