import Verif.Model.GarblerKey
import Verif.Spec.Drift
import Verif.Props.GarblerProbe

/-! The evaluator of the offline/online backend with blocks added to the rows of tables. -/

namespace Verif.Lemmas.Drift
open Verif.Model Verif.Model.GC Verif.Lemmas Verif.Props
open Verif.Spec.Circuit (Party Op gates onWire drift Calm)
open Verif.Spec
open Verif.Props.GarblerCheat (evalGate_rows)
open Verif.Props.GarblerProbe (answer run_append prefix_run record_append run_single run_one reveal_wires opened_append adds)
open Verif.Props.EvaluatorView (blindA theirs)
open Verif.Props.EvaluatorViewOnline (start off_shape shape_refl)

/-! ### The tables -/

theorem getElem?_addRows (P : Nat → Block × Block) (gc : List Block) (n : Nat) :
    (addRows P gc)[n]? = gc[n]?.map fun x => x ^^^ (if n % 2 = 0 then (P (n / 2)).1 else (P (n / 2)).2) := by
  unfold addRows
  rw [List.getElem?_mapIdx]

theorem vget_addRows {P : Nat → Block × Block} {gc : List Block} {k : Nat} {x y : Block} (hx : vget gc (k * 2) = .ok x) (hy : vget gc (k * 2 + 1) = .ok y) :
    vget (addRows P gc) (k * 2) = .ok (x ^^^ (P k).1) ∧ vget (addRows P gc) (k * 2 + 1) = .ok (y ^^^ (P k).2) := by
  unfold vget at hx hy ⊢
  rw [getElem?_addRows, getElem?_addRows]
  have a : k * 2 % 2 = 0 := by omega
  have b : k * 2 / 2 = k := by omega
  have c : ¬ (k * 2 + 1) % 2 = 0 := by omega
  have d : (k * 2 + 1) / 2 = k := by omega
  rw [if_pos a, if_neg c, b, d]
  constructor
  · cases h : gc[k * 2]? <;> rw [h] at hx <;> simp_all
  · cases h : gc[k * 2 + 1]? <;> rw [h] at hy <;> simp_all

/-- The offline state with the changed list of the evaluator. -/
def added (P : Nat → Block × Block) (m : OffNet) : OffNet := { m with eva := { m.eva with gc := addRows P m.eva.gc } }

theorem off_stepAdd (E : Env) (P : Nat → Block × Block) (m : OffNet) (h : m.toEva = []) (hl : m.eva.gc.length = m.gen.gid * 2) (op : Op) :
    (added P m).stepAdd E P op = .ok (added P (offNext E m op)) ∧ (offNext E m op).eva.gc.length = (offNext E m op).gen.gid * 2 := by
  have other : (∀ i j, op ≠ .and i j) → (added P m).stepAdd E P op = (added P m).step E op := by
    intro hn; cases op <;> first | rfl | exact absurd rfl (hn _ _)
  obtain ⟨g, e, q⟩ := m
  simp only at h hl
  subst h
  cases op with
  | and i j =>
    refine ⟨?_, by simp [offNext, OffGen.push, hl]; omega⟩
    simp only [OffNet.stepAdd, added, recvTable, bind, Except.bind, List.nil_append, offNext]
    unfold addRows
    rw [List.mapIdx_append, List.mapIdx_append]
    have a : g.gid * 2 % 2 = 0 := by omega
    have b : g.gid * 2 / 2 = g.gid := by omega
    have c : ¬ (g.gid * 2 + 1) % 2 = 0 := by omega
    have d : (g.gid * 2 + 1) / 2 = g.gid := by omega
    simp only [List.length_append, List.length_singleton, hl, List.mapIdx_cons, List.mapIdx_nil, Nat.zero_add, a, b, c, d, if_true, if_false]
  | reveal p ws =>
    rw [other (by simp)]
    obtain ⟨h1, -, -⟩ := off_step E (added P ⟨g, e, []⟩) rfl (.reveal p ws)
    rw [h1]
    simp only [offNext]
    split
    · exact ⟨rfl, hl⟩
    · exact ⟨rfl, hl⟩
  | pub b => exact ⟨rfl, hl⟩
  | inA b => exact ⟨rfl, hl⟩
  | inB b => exact ⟨rfl, hl⟩
  | xor i j => exact ⟨rfl, hl⟩
  | not i => exact ⟨rfl, hl⟩

theorem off_runAdd (E : Env) (P : Nat → Block × Block) (ops : List Op) : ∀ (m : OffNet), m.toEva = [] → m.eva.gc.length = m.gen.gid * 2 →
    ∃ f, m.run E ops = .ok f ∧ (added P m).runAdd E P ops = .ok (added P f) := by
  induction ops with
  | nil => intro m _ _; exact ⟨m, rfl, rfl⟩
  | cons op ops ih =>
    intro m h hl
    obtain ⟨a1, a2⟩ := off_stepAdd E P m h hl op
    obtain ⟨b1, b2, -⟩ := off_step E m h op
    obtain ⟨f, c1, c2⟩ := ih _ b2 a2
    exact ⟨f, by simp only [OffNet.run, b1, bind, Except.bind, c1], by simp only [OffNet.runAdd, a1, bind, Except.bind, c2]⟩

/-! ### The evaluator -/

/-- The state `e'` is the state `e` with the rows and the labels changed. -/
structure Off (E : Env) (P : Nat → Block × Block) (st : Nat × List Block) (e e' : OnEva) : Prop where
  gid : e.gid = st.1
  gid' : e'.gid = st.1
  pv : e'.pubValues = e.pubValues
  cnt : e'.revealCounter = e.revealCounter
  len : e.wires.length = st.2.length
  len' : e'.wires.length = st.2.length
  get : ∀ i, e'.get E i = e.get E i ^^^ onWire st.2 i
  even : ∀ i, lsb (onWire st.2 i) = false
  gc : e'.gc = addRows P e.gc

theorem onWire_push (D : List Block) (x : Block) (i : Nat) : onWire (D ++ [x]) i = if i = D.length then x else onWire D i := by
  unfold onWire
  rw [getD_push]

theorem Off.push {E : Env} {P : Nat → Block × Block} {st : Nat × List Block} {e e' : OnEva} (h : Off E P st e e') (x x' D : Block) (hx : x' = x ^^^ D) (hD : lsb D = false) (n : Nat) :
    Off E P (st.1 + n, st.2 ++ [D]) (OnEva.push { e with gid := e.gid + n } x) (OnEva.push { e' with gid := e'.gid + n } x') where
  gid := congrArg (· + n) h.gid
  gid' := congrArg (· + n) h.gid'
  pv := h.pv
  cnt := h.cnt
  len := by simp [OnEva.push, h.len]
  len' := by simp [OnEva.push, h.len']
  get := by
    intro i
    have g := h.get i
    unfold OnEva.get at g ⊢
    simp only [OnEva.push]
    rw [onWire_push, getD_push, getD_push, h.len, h.len']
    split
    · exact hx
    · exact g
  even := by
    intro i
    simp only
    rw [onWire_push]
    split
    · exact hD
    · exact h.even i
  gc := h.gc

theorem reveal_off (p : Party) (pv : List Bool) (f D : Nat → Block) (hD : ∀ i, lsb (D i) = false) : ∀ (ws : List Nat) (c : Nat) (q : List Msg),
    onEvaReveal p pv c (ws.map fun i => f i ^^^ D i) q = onEvaReveal p pv c (ws.map f) q := by
  intro ws
  have hl : ∀ i, lsb (f i ^^^ D i) = lsb (f i) := by intro i; rw [lsb_xor, hD i]; cases lsb (f i) <;> rfl
  induction ws with
  | nil => intro c q; rfl
  | cons w ws ih =>
    intro c q
    cases p <;> simp only [List.map_cons, onEvaReveal, hl, ih]

theorem alone_off (E : Env) {P : Nat → Block × Block} (hP : ∀ k, lsb (P k).1 = false ∧ lsb (P k).2 = false) {c : Nat → Bool} {st : Nat × List Block} {e e' : OnEva}
    (h : Off E P st e e') (op : Op)
    (hq : ∀ i j, op = .and i j → onWire st.2 i = 0 ∧ onWire st.2 j = 0 ∧ (P st.1 ≠ (0, 0) → i < st.2.length ∧ j < st.2.length)) (hc : ∀ i < st.2.length, c i = lsb (e.get E i))
    (q : List Msg) {o e1 q1 s} (hr : e.alone E op q = .ok (o, e1, q1, s)) :
    ∃ e1' s', e'.alone E op q = .ok (o, e1', q1, s') ∧ Off E P (drift P c st op) e1 e1'
      ∧ (∀ i < st.2.length, e1.get E i = e.get E i)
      ∧ ∀ ws, op = .reveal .pub ws → ∃ bs, o = some bs ∧ s' = answer E .pub bs (ws.map fun i => e.get E i ^^^ onWire st.2 i) := by
  have z : ∀ x : Block, x = x ^^^ 0 := by intro x; exact (BitVec.xor_zero).symm
  have l0 : lsb (0 : Block) = false := rfl
  have keep : ∀ (n : Nat) (x : Block), ∀ i < st.2.length, (OnEva.push { e with gid := e.gid + n } x).get E i = e.get E i := by
    intro n x i hi
    unfold OnEva.get
    simp only [OnEva.push]
    rw [getD_push, h.len, if_neg (by omega)]
  cases op with
  | pub b =>
    cases hr
    exact ⟨_, _, rfl, h.push _ _ 0 (z _) l0 0, keep 0 _, by simp⟩
  | xor i j =>
    cases hr
    refine ⟨_, _, rfl, h.push _ _ (onWire st.2 i ^^^ onWire st.2 j) ?_ (by rw [lsb_xor, h.even, h.even]; rfl) 0, keep 0 _, by simp⟩
    show e'.get E i ^^^ e'.get E j = e.get E i ^^^ e.get E j ^^^ _
    rw [h.get i, h.get j]
    ac_rfl
  | not i =>
    cases hr
    exact ⟨_, _, rfl, h.push _ _ (onWire st.2 i) (h.get i) (h.even i) 0, keep 0 _, by simp⟩
  | inA b =>
    simp only [OnEva.alone, OnEva.step, bind, Except.bind] at hr ⊢
    split at hr
    · cases hr
    · cases hr
      exact ⟨_, _, rfl, h.push _ _ 0 (z _) l0 0, keep 0 _, by simp⟩
  | inB b =>
    simp only [OnEva.alone, bind, Except.bind] at hr ⊢
    split at hr
    · cases hr
    · cases hr
      exact ⟨_, _, rfl, h.push _ _ 0 (z _) l0 0, keep 0 _, by simp⟩
  | and i j =>
    obtain ⟨mi, mj, lij⟩ := hq i j rfl
    have gi : e'.get E i = e.get E i := by rw [h.get i, mi]; exact (z _).symm
    have gj : e'.get E j = e.get E j := by rw [h.get j, mj]; exact (z _).symm
    simp only [OnEva.alone, OnEva.step, bind, Except.bind] at hr ⊢
    rw [h.gid] at hr
    split at hr
    · cases hr
    · rename_i a ha
      split at hr
      · cases hr
      · rename_i b hb
        cases hr
        obtain ⟨v1, v2⟩ := vget_addRows (P := P) ha hb
        rw [h.gid', h.gc, v1]
        simp only
        rw [v2, gi, gj]
        have hh := h.push (evalGate E (e.get E i) (e.get E j) (a, b) st.1) (evalGate E (e.get E i) (e.get E j) (a ^^^ (P st.1).1, b ^^^ (P st.1).2) st.1)
          ((if c i then (P st.1).1 else 0) ^^^ (if c j then (P st.1).2 else 0)) (by
            rw [evalGate_rows, BitVec.xor_assoc]
            congr 1
            by_cases hz : P st.1 = (0, 0)
            · rw [hz]
              cases c i <;> cases c j <;> cases lsb (e.get E i) <;> cases lsb (e.get E j) <;> rfl
            · rw [hc i (lij hz).1, hc j (lij hz).2]
              rfl) (by
            rw [lsb_xor]
            have l0' : lsb (0#128) = false := rfl
            cases c i <;> cases c j <;> simp [(hP st.1).1, (hP st.1).2, l0']) 1
        rw [h.gid, h.gid', h.gc] at hh
        have hk := keep 1 (evalGate E (e.get E i) (e.get E j) (a, b) st.1)
        rw [h.gid] at hk
        exact ⟨_, _, rfl, hh, hk, by simp⟩
  | reveal p ws =>
    have hw : ws.map (e'.get E) = ws.map fun i => e.get E i ^^^ onWire st.2 i := List.map_congr_left fun i _ => h.get i
    simp only [OnEva.alone, OnEva.step, bind, Except.bind] at hr ⊢
    rw [hw, h.pv, h.cnt, reveal_off _ _ _ _ h.even]
    split at hr
    · cases hr
    · rename_i x hx
      cases hr
      obtain ⟨eb, cc, q2, s2⟩ := x
      refine ⟨_, _, rfl, ⟨h.gid, h.gid', rfl, rfl, h.len, h.len', h.get, h.even, h.gc⟩, fun _ _ => rfl, ?_⟩
      intro ws' hp
      cases hp
      have s2n : s2 = [] := by
        have gen : ∀ (ls : List Block) (c : Nat) (q : List Msg) {bs c' q' s}, onEvaReveal .pub e.pubValues c ls q = .ok (bs, c', q', s) → s = [] := by
          intro ls
          induction ls with
          | nil => intro c q bs c' q' s h; cases h; rfl
          | cons l ls ih =>
            intro c q bs c' q' s h
            simp only [onEvaReveal, bind, Except.bind] at h
            split at h
            · cases h
            · split at h
              · cases h
              · rename_i y hy
                cases h
                exact ih _ _ hy
        exact gen _ _ _ hx
      subst s2n
      exact ⟨eb, rfl, rfl⟩

theorem drift_length (P : Nat → Block × Block) (c : Nat → Bool) (st : Nat × List Block) (op : Op) : (drift P c st op).2.length = st.2.length + adds op := by
  cases op <;> simp [drift, adds]

/-- The labels of the evaluator stay. -/
theorem stay (E : Env) : ∀ (ops : List Op) (e : OnEva) (q : List Msg) {os e1 q1 s}, e.run E ops q = .ok (os, e1, q1, s) →
    e.wires.length ≤ e1.wires.length ∧ ∀ i < e.wires.length, e1.get E i = e.get E i := by
  intro ops
  induction ops with
  | nil => intro e q os e1 q1 s h; cases h; exact ⟨Nat.le_refl _, fun _ _ => rfl⟩
  | cons op ops ih =>
    intro e q os e1 q1 s h
    simp only [OnEva.run, bind, Except.bind] at h
    cases ha : e.alone E op q with
    | error x => rw [ha] at h; cases h
    | ok x =>
      obtain ⟨o, e2, q2, s2⟩ := x
      rw [ha] at h
      simp only at h
      cases hb : e2.run E ops q2 with
      | error x => rw [hb] at h; cases h
      | ok x =>
        obtain ⟨os', e3, q3, s3⟩ := x
        rw [hb] at h
        cases h
        obtain ⟨l1, g1⟩ := ih e2 q2 hb
        have l2 := GarblerProbe.alone_length E e op q ha
        have g2 : ∀ i < e.wires.length, e2.get E i = e.get E i := by
          intro i hi
          have hp : ∀ (n : Nat) (x : Block), (OnEva.push { e with gid := n } x).get E i = e.get E i := by
            intro n x
            unfold OnEva.get
            simp only [OnEva.push]
            rw [getD_push, if_neg (by omega)]
          cases op with
          | pub b => cases ha; exact hp e.gid _
          | xor i j => cases ha; exact hp e.gid _
          | not i => cases ha; exact hp e.gid _
          | inA b =>
            simp only [OnEva.alone, OnEva.step, bind, Except.bind] at ha
            split at ha
            · cases ha
            · cases ha; exact hp e.gid _
          | inB b =>
            simp only [OnEva.alone, bind, Except.bind] at ha
            split at ha
            · cases ha
            · cases ha; exact hp e.gid _
          | and i j =>
            simp only [OnEva.alone, OnEva.step, bind, Except.bind] at ha
            split at ha
            · cases ha
            · split at ha
              · cases ha
              · cases ha; exact hp _ _
          | reveal p ws =>
            have hw := reveal_wires ha
            unfold OnEva.get
            rw [hw]
        refine ⟨?_, fun i hi => ?_⟩
        · show e.wires.length ≤ e3.wires.length
          omega
        · show e3.get E i = _
          rw [g1 i (by omega), g2 i hi]

theorem run_off (E : Env) {P : Nat → Block × Block} (hP : ∀ k, lsb (P k).1 = false ∧ lsb (P k).2 = false) {c : Nat → Bool} : ∀ (ops : List Op) (st : Nat × List Block) (e e' : OnEva),
    Off E P st e e' → Calm P c st ops → ∀ (q : List Msg) {os e1 q1 s},
    e.run E ops q = .ok (os, e1, q1, s) → (∀ i < e1.wires.length, c i = lsb (e1.get E i)) →
    ∃ e1' s', e'.run E ops q = .ok (os, e1', q1, s') ∧ Off E P (ops.foldl (drift P c) st) e1 e1' := by
  intro ops
  induction ops with
  | nil => intro st e e' h _ q os e1 q1 s hr _; cases hr; exact ⟨e', [], rfl, h⟩
  | cons op ops ih =>
    intro st e e' h hq q os e1 q1 s hr hc
    have hst := stay E _ e q hr
    simp only [OnEva.run, bind, Except.bind] at hr
    cases ha : e.alone E op q with
    | error x => rw [ha] at hr; cases hr
    | ok x =>
      obtain ⟨o, e2, q2, s2⟩ := x
      rw [ha] at hr
      simp only at hr
      cases hb : e2.run E ops q2 with
      | error x => rw [hb] at hr; cases hr
      | ok x =>
        obtain ⟨os', e3, q3, s3⟩ := x
        rw [hb] at hr
        cases hr
        obtain ⟨e2', s2', a1, a2, -, -⟩ := alone_off E hP (c := c) h op hq.1 (by
          intro i hi
          rw [← h.len] at hi
          rw [hc i (Nat.lt_of_lt_of_le hi hst.1)]
          exact congrArg lsb (hst.2 i hi)) q ha
        obtain ⟨e3', s3', b1, b2⟩ := ih _ e2 e2' a2 hq.2 q2 hb hc
        exact ⟨e3', s2' ++ s3', by simp only [OnEva.run, a1, b1, bind, Except.bind], b2⟩

theorem blind_drift (P : Nat → Block × Block) (c : Nat → Bool) (ops : List Op) : ∀ st, (ops.map blindA).foldl (drift P c) st = ops.foldl (drift P c) st := by
  induction ops with
  | nil => intro st; rfl
  | cons op ops ih =>
    intro st
    simp only [List.map_cons, List.foldl_cons]
    rw [ih]
    cases op <;> rfl

theorem blind_calm (P : Nat → Block × Block) (c : Nat → Bool) (ops : List Op) : ∀ st, Calm P c st ops → Calm P c st (ops.map blindA) := by
  induction ops with
  | nil => intro st h; exact h
  | cons op ops ih =>
    intro st h
    refine ⟨?_, ?_⟩
    · intro i j hij
      refine h.1 i j ?_
      cases op <;> first | exact hij | cases hij
    · have := ih _ h.2
      cases op <;> exact this

end Verif.Lemmas.Drift
