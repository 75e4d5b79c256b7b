import Verif.Props.Garbled
import Verif.Lemmas.DependConn

/-!
A connection over the optimised backend, where garbling and evaluation run together (C53).  Every opened value is taken from the execution of the
two parties; the opened values are those of TLS 1.2 with AES-128-GCM, and the label bits of the two parties share the secret values.
-/

namespace Verif.Props.Direct
open Verif.Model Verif.Model.Gate Verif.Model.GC Verif.Lemmas Verif.Lemmas.Gate
open Verif.Spec Verif.Spec.Circuit Verif.Spec.Encoding
open Verif.Props (NetInv Clean NoCoincidence net_step RevealOk opened_cons C16_delta)
open Verif.Props.Garbled

/-! ### Runs of the optimised backend -/

/-- The two parties at the start, with the offset made from `d`. -/
def start (d : Block) : Net := { gen := { delta := setDelta d }, eva := {} }

theorem start_inv (d : Block) : NetInv (start d) [] := by
  refine ⟨C16_delta d, rfl, rfl, rfl, rfl, rfl, rfl, rfl, fun i => Or.inl ⟨?_, ?_⟩⟩
  · simp [start, Gen.get, Circuit.get, publicLabel]
  · simp [start, Eva.get, Circuit.get, publicLabel]

theorem run_append (E : Env) (a b : List Op) : ∀ (n : Net),
    n.run E (a ++ b) = (do
      let (os, n) ← n.run E a
      let (os', n) ← n.run E b
      .ok (os ++ os', n)) := by
  induction a with
  | nil =>
    intro n
    simp only [List.nil_append, Net.run, bind, Except.bind]
    cases n.run E b <;> simp
  | cons op a ih =>
    intro n
    simp only [List.cons_append, Net.run, bind, Except.bind, ih]
    cases n.step E op with
    | error x => rfl
    | ok x =>
      simp only
      cases x.2.run E a with
      | error y => rfl
      | ok y =>
        simp only
        cases y.2.run E b with
        | error z => rfl
        | ok z => simp only [List.append_assoc]

theorem run_inv (E : Env) (ops : List Op) : ∀ (n : Net) (w : List Bool), NetInv n w → NoCoincidence E n ops →
    ∃ os n', n.run E ops = .ok (os, n') ∧ List.Forall₂ RevealOk os (opened w ops) ∧ NetInv n' (ops.foldl next w) := by
  induction ops with
  | nil => intro n w h _; exact ⟨[], n, rfl, .nil, h⟩
  | cons op ops ih =>
    intro n w h hc
    obtain ⟨o, n1, e1, h1, r1⟩ := net_step E n w op h hc.1
    obtain ⟨os, n', e2, r2, q⟩ := ih n1 _ h1 (hc.2 o n1 e1)
    refine ⟨o.toList ++ os, n', by simp only [Net.run, e1, e2, bind, Except.bind], ?_, q⟩
    rw [opened_cons]
    exact List.rel_append r1 r2

theorem step_out (E : Env) (n : Net) (op : Op) (o : Option (Party × List Bool × List Bool)) (m : Net)
    (h : n.step E op = .ok (o, m)) : o.toList.length = match op with | .reveal _ _ => 1 | _ => 0 := by
  cases op <;> simp only [Net.step, bind, Except.bind] at h
  case pub b => cases h; rfl
  case inA b => cases h; rfl
  case xor i j => cases h; rfl
  case not i => cases h; rfl
  case inB b => split at h <;> cases h; rfl
  case and i j => split at h <;> cases h; rfl
  case reveal p ws =>
    split at h
    · cases h
    · split at h
      · cases h
      · split at h <;> cases h; rfl

theorem run_length (E : Env) : ∀ (ops : List Op) (n : Net) os n', n.run E ops = .ok (os, n') → ∀ w, os.length = (opened w ops).length := by
  intro ops
  induction ops with
  | nil => intro n os n' h w; cases h; rfl
  | cons op ops ih =>
    intro n os n' h w
    simp only [Net.run, bind, Except.bind] at h
    cases h1 : n.step E op with
    | error x => rw [h1] at h; cases h
    | ok x =>
      rw [h1] at h
      obtain ⟨o, m⟩ := x
      simp only at h
      cases h2 : m.run E ops with
      | error x => rw [h2] at h; cases h
      | ok y =>
        rw [h2] at h
        obtain ⟨os', m'⟩ := y
        cases h
        have ho : o.toList.length = match op with | .reveal _ _ => 1 | _ => 0 := step_out E n op o m h1
        rw [List.length_append, ho]
        cases op with
        | reveal p ws => simp only [opened, List.length_cons]; rw [ih _ _ _ h2 w]; omega
        | _ => simp only [opened]; rw [ih _ _ _ h2]; exact Nat.zero_add _

/-- The openings of a run: what the execution of the operations of `s` by the two parties returns for the next opening.  A public
opening is read by both parties; `alice` says whose value is taken. -/
def backend (E : Env) (d : Block) (alice : Bool) : Oracle := fun s p ws =>
  match (start d).run E (s.program ++ [.reveal p (ws.map wireNo)]) with
  | .ok (os, _) =>
    match os.getLast? with
    | some (_, a, b) => match p with
      | .alice => a
      | .bob => b
      | .pub => if alice then a else b
    | none => []
  | .error _ => []

theorem backend_agree (E : Env) (d : Block) (alice : Bool) (t : Sess) (os : List (Party × List Bool × List Bool)) (n' : Net)
    (h : (start d).run E t.program = .ok (os, n')) (ho : List.Forall₂ RevealOk os (opened [] t.program)) :
    Agree (backend E d alice) {} t := by
  intro l r p ws n e _ hv
  obtain ⟨b, hb⟩ := program_cons l r p ws t.n n
  have ht : t = ⟨l ++ .reveal p ws :: r, t.n⟩ := by rw [← e]
  rw [ht, hb] at h ho
  rw [run_append] at h
  unfold backend
  simp only [bind, Except.bind] at h
  cases h1 : (start d).run E (Sess.program ⟨r, n⟩ ++ [.reveal p (ws.map wireNo)]) with
  | error x => rw [h1] at h; cases h
  | ok x =>
    rw [h1] at h
    obtain ⟨o1, n1⟩ := x
    simp only at h ⊢
    cases h2 : n1.run E b with
    | error x => rw [h2] at h; cases h
    | ok y =>
      rw [h2] at h
      obtain ⟨o2, n2⟩ := y
      cases h
      have hw : opened [] (Sess.program ⟨r, n⟩ ++ [.reveal p (ws.map wireNo)])
          = opened [] (Sess.program ⟨r, n⟩) ++ [(p, ws.map (bv ⟨r, n⟩))] := by
        rw [opened_append]
        show _ ++ [(p, (ws.map wireNo).map (get (wv ⟨r, n⟩)))] = _
        rw [List.map_map]
        congr 3
        exact List.map_congr_left fun w _ => bv_eq hv w
      have hl := run_length E _ _ _ _ h1 []
      rw [opened_append] at ho
      have ho := forall2_append_left hl ho
      rw [hw] at ho
      obtain ⟨o3, ⟨q, a, c⟩, rfl, h4⟩ := forall2_snoc ho
      rw [List.getLast?_concat]
      obtain ⟨h5, h6, h7⟩ := h4
      simp only at h5 h6 h7
      subst h5
      cases q with
      | alice => exact h6 (by decide)
      | bob => exact h7 (by decide)
      | pub =>
        cases alice with
        | true => exact h6 (by decide)
        | false => exact h7 (by decide)

/-! ### Wires that depend on an input -/

/-- The flagged wires of the garbler do not have the label of a constant. -/
structure Hid (n : Net) (f : List Bool) : Prop where
  len : n.gen.wires.length = f.length
  hid : ∀ i, get f i = true → isPublic (n.gen.get i) = false

theorem Hid.push {n : Net} {f : List Bool} (h : Hid n f) {g' : Gen} {b : Block} {v : Bool} {e : Eva} {q q' : List Msg}
    (hw : g'.wires = n.gen.wires) (hb : v = true → isPublic b = false) : Hid ⟨g'.push b, e, q, q'⟩ (f ++ [v]) := by
  refine ⟨by simp [Gen.push, hw, h.len], fun i hi => ?_⟩
  unfold Gen.get Gen.push
  simp only [hw, List.getD_eq_getElem?_getD]
  simp only [Circuit.get, List.getD_eq_getElem?_getD] at hi
  by_cases hl : i < f.length
  · rw [List.getElem?_append_left (by rw [h.len]; exact hl)]
    rw [List.getElem?_append_left hl] at hi
    have := h.hid i (by rw [Circuit.get, List.getD_eq_getElem?_getD]; exact hi)
    rwa [Gen.get, List.getD_eq_getElem?_getD] at this
  · rw [List.getElem?_append_right (by rw [h.len]; omega), h.len]
    rw [List.getElem?_append_right (by omega)] at hi
    cases hk : i - f.length with
    | zero => rw [hk] at hi; exact hb hi
    | succ k => rw [hk] at hi; simp at hi

theorem genAnd_wires (E : Env) (g : Gen) (a b : Block) : (genAnd E g a b).2.1.wires = g.wires := by
  unfold genAnd
  split
  · rfl
  · split
    · rfl
    · split <;> rfl

theorem hid_step (E : Env) {n n' : Net} {op : Op} {o : Option (Party × List Bool × List Bool)} {f : List Bool} (hc : Clean E n op)
    (h : Hid n f) (e : n.step E op = .ok (o, n')) (hcot : n.eva.cotPos = n.gen.cotPos) (ht : n.toGen = []) : Hid n' (dependsNext f op) := by
  cases op <;> simp only [Net.step, bind, Except.bind] at e
  case pub b => cases e; exact h.push rfl (fun x => by cases x)
  case inA b =>
    cases e
    refine h.push (g' := { n.gen with prgPos := n.gen.prgPos + 1 }) rfl fun _ => ?_
    rw [sel_if]; exact hc.1
  case inB b =>
    rw [ht] at e
    simp only [List.nil_append, recvBit] at e
    cases e
    refine h.push (g' := { n.gen with cotPos := n.gen.cotPos + 1 }) rfl fun _ => ?_
    rw [hcot, sel_if]; exact hc.1
  case xor i j =>
    cases e
    refine h.push rfl fun hx => (hc.1 ?_).1
    rcases Bool.or_eq_true_iff.mp hx with hx | hx
    · rw [h.hid _ hx, Bool.false_and]
    · rw [h.hid _ hx, Bool.and_false]
  case not i => cases e; exact h.push rfl fun hx => hc (h.hid _ hx)
  case and i j =>
    split at e
    · cases e
    · cases e
      refine h.push (genAnd_wires _ _ _ _) fun hx => ?_
      obtain ⟨h1, h2⟩ := (Bool.and_eq_true _ _).mp hx
      have p1 := h.hid _ h1
      have p2 := h.hid _ h2
      obtain ⟨a1, a2⟩ := isPublic_false p1
      obtain ⟨b1, b2⟩ := isPublic_false p2
      simp only [genAnd, a1, a2, b1, b2, Bool.or_self, Bool.false_eq_true, if_false]
      exact (hc p1 p2).1
  case reveal p ws =>
    split at e
    · cases e
    · split at e
      · cases e
      · split at e
        · cases e
        · cases e; exact ⟨h.len, h.hid⟩

theorem hid_run (E : Env) (ops : List Op) : ∀ (n : Net) (w f : List Bool), NetInv n w → Hid n f → NoCoincidence E n ops →
    ∀ os n', n.run E ops = .ok (os, n') → Hid n' (ops.foldl dependsNext f) := by
  induction ops with
  | nil => intro n w f _ h _ os n' e; cases e; exact h
  | cons op ops ih =>
    intro n w f hi h hc os n' e
    obtain ⟨o, n1, e1, h1, _⟩ := net_step E n w op hi hc.1
    simp only [Net.run, e1, bind, Except.bind] at e
    cases h2 : n1.run E ops with
    | error x => rw [h2] at e; cases e
    | ok x =>
      rw [h2] at e
      obtain ⟨os', m⟩ := x
      cases e
      exact ih n1 _ _ h1 (hid_step E hc.1 h e1 hi.cot hi.toGen) (hc.2 o n1 e1) _ _ h2

/-- In a run without coincidences the label bits of the two parties share the value of every wire that depends on an input, and are equal
for every wire whose label is that of a constant. -/
theorem C17_shares (E : Env) (d : Block) (ops : List Op) (hc : NoCoincidence E (start d) ops) :
    ∃ os n', (start d).run E ops = .ok (os, n')
      ∧ (∀ i, get (depends ops) i = true → (lsb (n'.gen.get i) ^^ lsb (n'.eva.get i)) = get (ops.foldl next []) i)
      ∧ ∀ i, isPublic (n'.gen.get i) = true → n'.eva.get i = n'.gen.get i ∧ n'.gen.get i = publicLabel (get (ops.foldl next []) i) := by
  obtain ⟨os, n', e, _, h⟩ := run_inv E ops _ [] (start_inv d) hc
  have hh := hid_run E ops _ [] [] (start_inv d) ⟨rfl, fun i hi => by simp [Circuit.get] at hi⟩ hc os n' e
  refine ⟨os, n', e, fun i hi => ?_, fun i hi => ?_⟩
  · have hp := hh.hid i hi
    rcases h.rel i with ⟨a, _⟩ | ⟨_, _, c⟩
    · rw [a] at hp
      exact absurd hp (by cases get (ops.foldl next []) i <;> decide)
    · rw [c, lsb_xor, lsb_sel _ _ h.delta]
      cases lsb (n'.gen.get i) <;> cases get (ops.foldl next []) i <;> rfl
  · rcases h.rel i with ⟨a, b⟩ | ⟨a, _⟩
    · exact ⟨b.trans a.symm, a⟩
    · rw [a] at hi; cases hi

/-! ### An environment without coincidences -/

/-- All labels of the evaluator are `2`. -/
def calm : Env :=
  { perm := fun y => y ^^^ (if y.getLsbD 64 then 2 else 0), sigma := id, hash := fun l => (l.map (·.toNat)).sum, prg := fun _ => 2,
    cotK := fun _ => 2, cotR := fun _ => false, fixPoint := 2, const0 := 4, const1 := 6 }

theorem calm_h (x t : Block) : calm.h x t = if (x ^^^ t).getLsbD 64 then 2 else 0 := by
  show ((id x ^^^ t) ^^^ (if (id x ^^^ t).getLsbD 64 then 2 else 0)) ^^^ (id x ^^^ t) = _
  rw [BitVec.xor_comm (id x ^^^ t), BitVec.xor_assoc, BitVec.xor_self, BitVec.xor_zero]
  rfl

theorem tweak_bit (n : Nat) : (GC.makeBlock (BitVec.ofNat 64 n) 0).getLsbD 64 = n.testBit 0 := by
  unfold GC.makeBlock
  rw [BitVec.getLsbD_append, if_neg (by decide), BitVec.getLsbD_ofNat]
  simp

theorem calm_h1 (i : Nat) : calm.h 2 (tweak1 i) = 0 := by
  rw [calm_h, BitVec.getLsbD_xor, tweak1, tweak_bit]
  simp

theorem calm_h2 (i : Nat) : calm.h 2 (tweak2 i) = 2 := by
  rw [calm_h, BitVec.getLsbD_xor, tweak2, tweak_bit]
  simp

theorem calm_eval (t : Block × Block) (i : Nat) : evalGate calm 2 2 t i = 2 := by
  simp only [evalGate, calm_h1, calm_h2, show lsb 2 = false from by decide, sel, Bool.false_eq_true, if_false]
  decide

/-- The labels of the evaluator. -/
def Few (b : Block) : Prop := b = zeroB ∨ b = oneB ∨ b = 2

structure Calm (n : Net) (w : List Bool) : Prop where
  inv : NetInv n w
  delta : n.gen.delta = 1
  few : ∀ i, Few (n.eva.get i)

theorem Calm.two {n : Net} {w : List Bool} (h : Calm n w) (i : Nat) (hi : isPublic (n.gen.get i) = false) : n.eva.get i = 2 := by
  rcases h.inv.rel i with ⟨a, _⟩ | ⟨_, b, _⟩
  · rw [a] at hi
    exact absurd hi (by cases get w i <;> decide)
  · rcases h.few i with e | e | e
    · rw [e] at b; exact absurd b (by decide)
    · rw [e] at b; exact absurd b (by decide)
    · exact e

theorem Calm.gen {n : Net} {w : List Bool} (h : Calm n w) (i : Nat) (hi : isPublic (n.gen.get i) = false) :
    n.gen.get i = 2 ^^^ sel (get w i) 1 := by
  rcases h.inv.rel i with ⟨a, _⟩ | ⟨_, _, c⟩
  · rw [a] at hi
    exact absurd hi (by cases get w i <;> decide)
  · rw [h.two i hi, h.delta] at c
    rw [c, BitVec.xor_assoc, sel_xor]
    simp [sel]

theorem two_secret (v : Bool) : isPublic (2 ^^^ sel v 1) = false := by cases v <;> decide

theorem Calm.clean {n : Net} {w : List Bool} (h : Calm n w) (op : Op) : Clean calm n op := by
  cases op with
  | pub b => trivial
  | reveal p ws => trivial
  | inA b => exact ⟨by rw [h.delta]; exact two_secret b, by show isPublic 2 = false; decide⟩
  | inB b => exact ⟨by rw [h.delta]; exact two_secret _, by rw [h.delta]; exact two_secret _⟩
  | and i j =>
    intro hi hj
    have hg := halfgate calm (n.gen.get i) (n.gen.get j) n.gen.delta h.inv.delta n.gen.gid (get w i) (get w j)
    have e1 : n.gen.get i ^^^ sel (get w i) n.gen.delta = n.eva.get i := by
      rw [h.gen i hi, h.two i hi, h.delta, BitVec.xor_assoc, sel_xor]; simp [sel]
    have e2 : n.gen.get j ^^^ sel (get w j) n.gen.delta = n.eva.get j := by
      rw [h.gen j hj, h.two j hj, h.delta, BitVec.xor_assoc, sel_xor]; simp [sel]
    rw [e1, e2] at hg
    generalize garble calm (n.gen.get i) (n.gen.get i ^^^ n.gen.delta) (n.gen.get j) (n.gen.get j ^^^ n.gen.delta) n.gen.delta
      n.gen.gid = r at hg ⊢
    have he : evalGate calm (n.eva.get i) (n.eva.get j) r.2 n.gen.gid = 2 := by rw [h.two i hi, h.two j hj, calm_eval]
    refine ⟨?_, by rw [he]; decide⟩
    have : r.1 = 2 ^^^ sel (get w i && get w j) 1 := by
      rw [← he, hg, h.delta, BitVec.xor_assoc, sel_xor]
      simp [sel]
    rw [this]
    exact two_secret _
  | not i =>
    intro hi
    have e := h.gen i hi
    rw [e, h.delta]
    cases get w i <;> decide
  | xor i j =>
    refine ⟨fun hp => ?_, fun hi hj _ => by rw [h.two i hi, h.two j hj]⟩
    cases hi : isPublic (n.gen.get i) with
    | false =>
      cases hj : isPublic (n.gen.get j) with
      | false =>
        rw [h.gen i hi, h.gen j hj, h.two i hi, h.two j hj, h.delta]
        cases get w i <;> cases get w j <;> decide
      | true =>
        rcases h.inv.rel j with ⟨a, b⟩ | ⟨a, _⟩
        · rw [h.gen i hi, h.two i hi, h.delta, a, b]
          cases get w i <;> cases get w j <;> decide
        · rw [a] at hj; cases hj
    | true =>
      cases hj : isPublic (n.gen.get j) with
      | false =>
        rcases h.inv.rel i with ⟨a, b⟩ | ⟨a, _⟩
        · rw [h.gen j hj, h.two j hj, h.delta, a, b]
          cases get w i <;> cases get w j <;> decide
        · rw [a] at hi; cases hi
      | true => rw [hi, hj] at hp; cases hp

theorem few_push (e e' : Eva) (b : Block) (h : ∀ i, Few (e.get i)) (hw : e'.wires = e.wires) (hb : Few b) (i : Nat) :
    Few ((e'.push b).get i) := by
  unfold Eva.get Eva.push
  simp only [hw, List.getD_eq_getElem?_getD]
  by_cases hi : i < e.wires.length
  · rw [List.getElem?_append_left hi]
    have := h i
    rwa [Eva.get, List.getD_eq_getElem?_getD] at this
  · rw [List.getElem?_append_right (by omega)]
    cases i - e.wires.length with
    | zero => exact hb
    | succ k => exact Or.inl rfl

theorem few_label (v : Bool) : Few (publicLabel v) := by cases v; exact Or.inl rfl; exact Or.inr (Or.inl rfl)

theorem few_not {a : Block} (h : Few a) : Few (evaNot a) := by
  rcases h with rfl | rfl | rfl
  · exact Or.inr (Or.inl (by decide))
  · exact Or.inl (by decide)
  · exact Or.inr (Or.inr (by decide))

theorem few_xor {a b : Block} (ha : Few a) (hb : Few b) : Few (evaXor calm a b) := by
  rcases ha with rfl | rfl | rfl <;> rcases hb with rfl | rfl | rfl <;> unfold Few <;> decide

theorem few_and {a b : Block} (ha : Few a) (hb : Few b) (e : Eva) (q : List Msg) (l : Block) (e' : Eva) (q' : List Msg)
    (h : evaAnd calm e a b q = .ok (l, e', q')) : Few l ∧ e'.wires = e.wires := by
  unfold evaAnd at h
  split at h
  · cases h
    refine ⟨?_, rfl⟩
    rcases ha with rfl | rfl | rfl <;> rcases hb with rfl | rfl | rfl <;> unfold Few <;> decide
  · rename_i hp
    rcases ha with rfl | rfl | rfl
    · exact absurd (by simp) hp
    · exact absurd (by simp) hp
    · rcases hb with rfl | rfl | rfl
      · exact absurd (by decide) hp
      · exact absurd (by decide) hp
      · simp only [bind, Except.bind] at h
        split at h
        · cases h
        · cases h
          exact ⟨Or.inr (Or.inr (calm_eval _ _)), rfl⟩

theorem few_step {n n' : Net} {op : Op} {o : Option (Party × List Bool × List Bool)} (h : ∀ i, Few (n.eva.get i))
    (e : n.step calm op = .ok (o, n')) : n'.gen.delta = n.gen.delta ∧ ∀ i, Few (n'.eva.get i) := by
  cases op <;> simp only [Net.step, bind, Except.bind] at e
  case pub b => cases e; exact ⟨rfl, few_push _ _ _ h rfl (few_label b)⟩
  case inA b => cases e; exact ⟨rfl, few_push n.eva _ _ h rfl (Or.inr (Or.inr rfl))⟩
  case xor i j => cases e; exact ⟨rfl, few_push _ _ _ h rfl (few_xor (h i) (h j))⟩
  case not i => cases e; exact ⟨rfl, few_push _ _ _ h rfl (few_not (h i))⟩
  case inB b =>
    split at e
    · cases e
    · cases e
      refine ⟨rfl, few_push n.eva _ _ h rfl (Or.inr (Or.inr ?_))⟩
      show (2 : Block) ^^^ sel false _ = 2
      simp [sel]
  case and i j =>
    split at e
    · cases e
    · rename_i v he
      cases e
      obtain ⟨l, e', q'⟩ := v
      obtain ⟨h1, h2⟩ := few_and (h i) (h j) _ _ _ _ _ he
      refine ⟨?_, few_push n.eva e' l h h2 h1⟩
      show (genAnd calm n.gen (n.gen.get i) (n.gen.get j)).2.1.delta = _
      unfold genAnd
      split
      · rfl
      · split
        · rfl
        · split <;> rfl
  case reveal p ws =>
    split at e
    · cases e
    · split at e
      · cases e
      · split at e
        · cases e
        · cases e; exact ⟨rfl, h⟩

theorem calm_run (ops : List Op) : ∀ (n : Net) (w : List Bool), Calm n w → NoCoincidence calm n ops := by
  induction ops with
  | nil => intro n w h; trivial
  | cons op ops ih =>
    intro n w h
    refine ⟨h.clean op, fun o n' e => ih n' (next w op) ?_⟩
    obtain ⟨o2, n2, e2, h2, _⟩ := net_step calm n w op h.inv (h.clean op)
    rw [e] at e2
    cases e2
    obtain ⟨h3, h4⟩ := few_step h.few e
    exact ⟨h2, h3.trans h.delta, h4⟩

/-- The hypothesis `NoCoincidence` of `C17_execution` can be met by every program, whatever its size and its inputs: one environment
serves them all.  Its permutation is a bijection and its `sigma` is linear. -/
theorem C17_hypothesis_satisfiable : ∃ E : Env, Function.Bijective E.perm ∧ (∀ a b, E.sigma (a ^^^ b) = E.sigma a ^^^ E.sigma b)
    ∧ ∀ ops, NoCoincidence E (start 0) ops := by
  refine ⟨calm, ?_, fun _ _ => rfl, fun ops => calm_run ops _ [] ⟨start_inv 0, by decide, fun i => Or.inl ?_⟩⟩
  · have : Function.Involutive calm.perm := by
      intro y
      have hb : ((y ^^^ (if y.getLsbD 64 then 2 else 0)) : Block).getLsbD 64 = y.getLsbD 64 := by
        rw [BitVec.getLsbD_xor]
        cases y.getLsbD 64 <;> decide
      show (y ^^^ (if y.getLsbD 64 then 2 else 0)) ^^^ (if ((y ^^^ (if y.getLsbD 64 then 2 else 0)) : Block).getLsbD 64 then 2 else 0) = y
      rw [hb, BitVec.xor_assoc, BitVec.xor_self, BitVec.xor_zero]
    exact this.bijective
  · simp [start, Eva.get]

/-! ### A connection -/

/-- The xor of the least significant bits of the labels the two parties hold for `x`. -/
def netShared (n : Net) (x : SInt) : List Bool := x.map fun w => lsb (n.gen.get (wireNo w)) ^^ lsb (n.eva.get (wireNo w))

/-- What the label bits of a call must share, most significant bit first: the hash key for a record object, the mask of the tag and the
key stream for a record. -/
def NetShares (n : Net) (k : Keys) : Call → Out → Prop
  | .newAead _ cl, o => (netShared n o.h).reverse = bytesBits (GCM.bytesOf (aes (if cl then k.ck else k.sk) 0))
  | .encrypt _ cl iv len _, o => (netShared n o.z0).reverse = bytesBits (GCM.bytesOf (k.mask cl iv))
      ∧ (netShared n o.z).reverse = bytesBits (k.stream cl iv len)
  | .decrypt _ cl iv len _, o => (netShared n o.z0).reverse = bytesBits (GCM.bytesOf (k.mask cl iv))
      ∧ (netShared n o.z).reverse = bytesBits (k.stream cl iv len)
  | _, _ => True

theorem netShared_eq {n : Net} {t : Sess} {x : SInt} {v : Integer} (hv : Valid t) (hd : DV t) (h : IR t x v) (hx : Dp t x)
    (hs : ∀ i, get (depends t.program) i = true → (lsb (n.gen.get i) ^^ lsb (n.eva.get i)) = get (t.program.foldl next []) i) :
    netShared n x = v := by
  rw [← map_bv h]
  exact List.map_congr_left fun w hw => (hs _ ((dw_no hd w).trans (hx w hw))).trans (bv_eq hv w)

theorem netShares_of {n : Net} {t : Sess} {k : Keys} (hv : Valid t) (hd : DV t)
    (hs : ∀ i, get (depends t.program) i = true → (lsb (n.gen.get i) ^^ lsb (n.eva.get i)) = get (t.program.foldl next []) i) :
    ∀ {op : Call} {o : Out}, Holds t k op o → DO t o → NetShares n k op o
  | .newAead _ _, _, h, x => by show _ = _; rw [netShared_eq hv hd h x.1 hs, strToInt_reverse]
  | .encrypt .., _, h, x => ⟨by rw [netShared_eq hv hd h.1 x.2.1 hs, strToInt_reverse], by rw [netShared_eq hv hd h.2 x.2.2 hs, strToInt_reverse]⟩
  | .decrypt .., _, h, x => ⟨by rw [netShared_eq hv hd h.1 x.2.1 hs, strToInt_reverse], by rw [netShared_eq hv hd h.2 x.2.2 hs, strToInt_reverse]⟩
  | .masterKey .., _, _, _ => trivial
  | .extendedMasterKey .., _, _, _ => trivial
  | .expansionKeys .., _, _, _ => trivial
  | .clientFinished .., _, _, _ => trivial
  | .serverFinished .., _, _, _ => trivial

theorem later_of {c s : Bool} {rest : List Call} (h : Admissible c s rest) : ∀ op ∈ rest, isLater op := by
  induction rest generalizing c s with
  | nil => intro op h; cases h
  | cons a rest ih =>
    intro op ho
    cases a with
    | masterKey => cases h
    | extendedMasterKey => cases h
    | expansionKeys => cases h
    | clientFinished => rcases List.mem_cons.mp ho with rfl | ho; trivial; exact ih h.2.2 op ho
    | serverFinished => rcases List.mem_cons.mp ho with rfl | ho; trivial; exact ih h.2.2 op ho
    | newAead => rcases List.mem_cons.mp ho with rfl | ho; trivial; exact ih h op ho
    | encrypt => rcases List.mem_cons.mp ho with rfl | ho; trivial; exact ih h.2.2 op ho
    | decrypt => rcases List.mem_cons.mp ho with rfl | ho; trivial; exact ih h.2.2 op ho

theorem start_of {q : Nat} {master : List Bool} {first : Call} (h : Starts q master first) : isStart first := by
  cases first with
  | masterKey => trivial
  | extendedMasterKey => trivial
  | _ => cases h

theorem forall2_mem {α β : Type} {R S : α → β → Prop} {l : List α} {m : List β} (h : List.Forall₂ R l m)
    (hi : ∀ a b, b ∈ m → R a b → S a b) : List.Forall₂ S l m := by
  induction h with
  | nil => exact .nil
  | cons a _ ih => exact .cons (hi _ _ List.mem_cons_self a) (ih fun x y hy => hi x y (List.mem_cons_of_mem _ hy))

/-- **C53.**  The connection of `C47_connection` over the optimised backend, where every table is garbled when the evaluator needs it
(`setup_protocol` with `ENABLE_OFFLINE_ONLINE = false`, `backend/switch.h:110-118`).  The operations `t` of the connection are fixed by the calls alone.  For every hash function, permutation, label stream
and `Delta` for which no label of the run collides with a reserved one, the connection, with every opening taken from the joint execution of the
two parties (by either of them), succeeds with exactly these operations; it opens the finished messages of RFC 5246 and the AES-128-GCM key
streams; all messages between the parties are consumed; and, although the label bits of a wire with a public label are equal and share nothing, the
label bits of the wires `protocol/aead.h` takes as its shares do share the hash key, the mask of the tag and the key stream: in a connection over
a curve whose order has at least four bytes every one of these wires depends on an input. -/
theorem C53_connection {L : Lib} (hL : LibSound L) (hD : LibDep L) (q : Nat) (rounds : Bool) (hq : bnNumBytes q < 2 ^ 59) (master : List Bool)
    (first : Call) (h : Starts q master first) (g : Nat → List Byte) (hg : Buf g) (rc rs : List Byte) (hl : rc.length + rs.length < 2 ^ 57)
    (rest : List Call) (ha : Admissible false false rest) (hn : rest.length < 2 ^ 60) :
    ∃ k : Keys, k.Of master (bytesBits rc) (bytesBits rs)
      ∧ ∃ outs c t, List.Forall₂ (Opens master k) rest outs
      ∧ ∀ (E : Env) (d : Block), NoCoincidence E (start d) t.program →
        (∀ alice, ConnG.run L { hs := { q := q, roundsOpt := rounds } } (first :: .expansionKeys g rc rs :: rest)
          (backend E d alice) {} = .ok (({} :: {} :: outs, c), t))
        ∧ ∃ os n', (start d).run E t.program = .ok (os, n') ∧ n'.toEva = [] ∧ n'.toGen = [] ∧ n'.gen.gid = n'.eva.gid
        ∧ (4 ≤ bnNumBytes q → List.Forall₂ (NetShares n' k) rest outs) := by
  obtain ⟨⟨o, c⟩, t, _, run, _, hv, k, hk, ⟨outs, h1, h2⟩, _⟩ :=
    ref_connection hL q rounds hq master first h g hg rc rs hl rest ha hn valid_empty
  simp only at h1
  subst h1
  refine ⟨k, hk, outs, c, t, h2.imp fun _ _ x => x.1, fun E d hc => ?_⟩
  obtain ⟨os, n', e, ho, hi⟩ := run_inv E _ _ [] (start_inv d) hc
  refine ⟨fun alice => run _ (backend_agree E d alice t os n' e ho), os, n', e, hi.toEva, hi.toGen, hi.gid.symm, fun h4 => ?_⟩
  obtain ⟨hd, _, hdo⟩ := sec_connection hD q rounds h4 first (start_of h) g rc rs rest (later_of ha) plain _ t dv_empty
    (run plain (agree_plain _ _))
  obtain ⟨os', n'', e', hsh, _⟩ := C17_shares E d _ hc
  have hnn : n'' = n' := by
    rw [e] at e'
    exact (congrArg Prod.snd (Except.ok.inj e')).symm
  subst hnn
  exact forall2_mem h2 fun op o hm x => netShares_of hv hd hsh x.2 (hdo o (List.mem_cons_of_mem _ (List.mem_cons_of_mem _ hm)))

/-- A curve order of four bytes. -/
def exStart4 : Call := .masterKey (fun _ => List.replicate 64 3) 200 100 (List.replicate 32 4) (List.replicate 32 5)

theorem exStart4_ok : Starts 4294967291 (TLS.masterSecret (SHA256.beBits (8 * bnNumBytes 4294967291) ((200 + 100) % 4294967291))
    (bytesBits (List.replicate 32 4)) (bytesBits (List.replicate 32 5))) exStart4 :=
  ⟨fun _ => by simp, by decide, by decide, by simp, rfl⟩

/-- Every hypothesis is met, for both modes of the PRF, by a connection with finished messages and records, and by an environment without
coincidences. -/
example (rounds : Bool) : ∃ (k : Keys) (outs : List Out) (c : ConnG) (E : Env) (t : Sess), NoCoincidence E (start 0) t.program
    ∧ ConnG.run empLib { hs := { q := 4294967291, roundsOpt := rounds } } (exStart4 :: .expansionKeys (fun _ => List.replicate 64 8)
      (List.replicate 32 4) (List.replicate 32 5) :: exRest) (backend E 0 true) {} = .ok (({} :: {} :: outs, c), t)
    ∧ ∃ os n', (start 0).run E t.program = .ok (os, n') ∧ List.Forall₂ (NetShares n' k) exRest outs := by
  obtain ⟨k, _, outs, c, t, _, hall⟩ := C53_connection empLib_sound empLib_dep 4294967291 rounds (by decide +kernel) _ exStart4 exStart4_ok
    (fun _ => List.replicate 64 8) (fun _ => by simp) (List.replicate 32 4) (List.replicate 32 5) (by simp) exRest exRest_ok (by decide)
  obtain ⟨E, _, _, hE⟩ := C17_hypothesis_satisfiable
  obtain ⟨h1, os, n', h2, _, _, _, h3⟩ := hall E 0 (hE _)
  exact ⟨k, outs, c, E, t, hE _, h1 true, os, n', h2, h3 (by decide +kernel)⟩

end Verif.Props.Direct
