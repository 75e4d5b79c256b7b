import Verif.Model.GarblerProbe
import Verif.Spec.Linear
import Verif.Props.GarblerCheat
import Verif.Props.EvaluatorViewOnline

/-! C81: the digest the evaluator sends at a public opening tells a garbler that changed a table a bit of its choice; nothing that is opened changes. -/

namespace Verif.Props.GarblerProbe
open Verif.Model Verif.Model.GC Verif.Lemmas Verif.Props
open Verif.Spec.Circuit (Party Op gates mark Quiet IsLinear)
open Verif.Spec
open Verif.Props.GarblerCheat (evalGate_rows)
open Verif.Props.EvaluatorView (blindA theirs)
open Verif.Props.EvaluatorViewOnline (start off_shape shape_refl on_ok alone_frame send_inB join_theirs)

/-! ### The tables -/

theorem getElem?_probe (k : Nat) (u v : Block) (gc : List Block) (n : Nat) :
    (probe k u v gc)[n]? = gc[n]?.map fun x => if n = k * 2 then x ^^^ u else if n = k * 2 + 1 then x ^^^ v else x := by
  unfold probe
  rw [List.getElem?_mapIdx]

theorem vget_other {k g : Nat} (h : g ≠ k) (u v : Block) (gc : List Block) :
    vget (probe k u v gc) (g * 2) = vget gc (g * 2) ∧ vget (probe k u v gc) (g * 2 + 1) = vget gc (g * 2 + 1) := by
  constructor <;> unfold vget <;> rw [getElem?_probe]
  · have a : ¬ g * 2 = k * 2 := by omega
    have b : ¬ g * 2 = k * 2 + 1 := by omega
    simp only [a, b, if_false, Option.map_id']
  · have a : ¬ g * 2 + 1 = k * 2 := by omega
    have b : ¬ g * 2 + 1 = k * 2 + 1 := by omega
    simp only [a, b, if_false, Option.map_id']

theorem vget_same {k : Nat} {u v : Block} {gc : List Block} {x y : Block} (hx : vget gc (k * 2) = .ok x) (hy : vget gc (k * 2 + 1) = .ok y) :
    vget (probe k u v gc) (k * 2) = .ok (x ^^^ u) ∧ vget (probe k u v gc) (k * 2 + 1) = .ok (y ^^^ v) := by
  unfold vget at hx hy ⊢
  rw [getElem?_probe, getElem?_probe]
  constructor
  · cases h : gc[k * 2]? <;> rw [h] at hx <;> simp_all
  · cases h : gc[k * 2 + 1]? <;> rw [h] at hy <;> simp_all

/-- The offline state with the changed list of the evaluator. -/
def probed (k : Nat) (u v : Block) (m : OffNet) : OffNet := { m with eva := { m.eva with gc := probe k u v m.eva.gc } }

theorem off_stepProbe (E : Env) (k : Nat) (u v : Block) (m : OffNet) (h : m.toEva = []) (hl : m.eva.gc.length = m.gen.gid * 2) (op : Op) :
    (probed k u v m).stepProbe E k u v op = .ok (probed k u v (offNext E m op)) ∧ (offNext E m op).eva.gc.length = (offNext E m op).gen.gid * 2 := by
  have other : (∀ i j, op ≠ .and i j) → (probed k u v m).stepProbe E k u v op = (probed k u v m).step E op := by
    intro hn; cases op <;> first | rfl | exact absurd rfl (hn _ _)
  obtain ⟨g, e, q⟩ := m
  simp only at h hl
  subst h
  cases op with
  | and i j =>
    refine ⟨?_, by simp [offNext, OffGen.push, hl]; omega⟩
    simp only [OffNet.stepProbe, probed, recvTable, bind, Except.bind, List.nil_append, offNext]
    unfold probe
    rw [List.mapIdx_append, List.mapIdx_append]
    simp only [List.length_append, List.length_singleton, hl, List.mapIdx_cons, List.mapIdx_nil, Nat.zero_add]
    by_cases hk : g.gid = k
    · subst hk
      simp
    · have a : ¬ g.gid * 2 = k * 2 := by omega
      have b : ¬ g.gid * 2 = k * 2 + 1 := by omega
      have c : ¬ g.gid * 2 + 1 = k * 2 := by omega
      have d : ¬ g.gid * 2 + 1 = k * 2 + 1 := by omega
      simp only [a, b, c, d, hk, if_false]
  | reveal p ws =>
    rw [other (by simp)]
    obtain ⟨h1, -, -⟩ := off_step E (probed k u v ⟨g, e, []⟩) rfl (.reveal p ws)
    rw [h1]
    simp only [offNext]
    split
    · exact ⟨rfl, hl⟩
    · exact ⟨rfl, hl⟩
  | pub b => exact ⟨rfl, hl⟩
  | inA b => exact ⟨rfl, hl⟩
  | inB b => exact ⟨rfl, hl⟩
  | xor i j => exact ⟨rfl, hl⟩
  | not i => exact ⟨rfl, hl⟩

theorem off_runProbe (E : Env) (k : Nat) (u v : Block) (ops : List Op) : ∀ (m : OffNet), m.toEva = [] → m.eva.gc.length = m.gen.gid * 2 →
    ∃ f, m.run E ops = .ok f ∧ (probed k u v m).runProbe E k u v ops = .ok (probed k u v f) := by
  induction ops with
  | nil => intro m _ _; exact ⟨m, rfl, rfl⟩
  | cons op ops ih =>
    intro m h hl
    obtain ⟨a1, a2⟩ := off_stepProbe E k u v m h hl op
    obtain ⟨b1, b2, -⟩ := off_step E m h op
    obtain ⟨f, c1, c2⟩ := ih _ b2 a2
    exact ⟨f, by simp only [OffNet.run, b1, bind, Except.bind, c1], by simp only [OffNet.runProbe, a1, bind, Except.bind, c2]⟩

/-! ### The evaluator -/

/-- The evaluator with the changed list. -/
def probedEva (k : Nat) (u v : Block) (e : OnEva) : OnEva := { e with gc := probe k u v e.gc }

theorem alone_before (E : Env) (k : Nat) (u v : Block) (e : OnEva) (op : Op) (q : List Msg) (h : e.gid + gates op ≤ k) {o e1 q1 s}
    (hr : e.alone E op q = .ok (o, e1, q1, s)) :
    (probedEva k u v e).alone E op q = .ok (o, probedEva k u v e1, q1, s) ∧ e1.gid = e.gid + gates op ∧ e1.gc = e.gc := by
  cases op with
  | pub b => cases hr; exact ⟨rfl, rfl, rfl⟩
  | xor i j => cases hr; exact ⟨rfl, rfl, rfl⟩
  | not i => cases hr; exact ⟨rfl, rfl, rfl⟩
  | inA b =>
    simp only [OnEva.alone, OnEva.step, bind, Except.bind] at hr ⊢
    split at hr
    · cases hr
    · cases hr; exact ⟨rfl, rfl, rfl⟩
  | inB b =>
    simp only [OnEva.alone, bind, Except.bind] at hr ⊢
    split at hr
    · cases hr
    · cases hr; exact ⟨rfl, rfl, rfl⟩
  | and i j =>
    simp only [gates] at h
    simp only [OnEva.alone, OnEva.step, bind, Except.bind] at hr ⊢
    obtain ⟨v1, v2⟩ := vget_other (k := k) (g := e.gid) (by omega) u v e.gc
    have v1' : vget (probedEva k u v e).gc ((probedEva k u v e).gid * 2) = vget e.gc (e.gid * 2) := v1
    rw [v1']
    split at hr
    · cases hr
    · have v2' : vget (probedEva k u v e).gc ((probedEva k u v e).gid * 2 + 1) = vget e.gc (e.gid * 2 + 1) := v2
      rw [v2']
      split at hr
      · cases hr
      · cases hr; exact ⟨rfl, rfl, rfl⟩
  | reveal p ws =>
    simp only [OnEva.alone, OnEva.step, bind, Except.bind] at hr ⊢
    split at hr
    · cases hr
    · cases hr
      rename_i x hx
      have hx' : onEvaReveal p (probedEva k u v e).pubValues (probedEva k u v e).revealCounter (ws.map ((probedEva k u v e).get E)) q = .ok x := hx
      rw [hx']
      exact ⟨rfl, rfl, rfl⟩

theorem run_before (E : Env) (k : Nat) (u v : Block) : ∀ (ops : List Op) (e : OnEva) (q : List Msg), e.gid + (ops.map gates).sum ≤ k → ∀ {os e1 q1 s},
    e.run E ops q = .ok (os, e1, q1, s) →
    (probedEva k u v e).run E ops q = .ok (os, probedEva k u v e1, q1, s) ∧ e1.gid = e.gid + (ops.map gates).sum ∧ e1.gc = e.gc := by
  intro ops
  induction ops with
  | nil => intro e q h os e1 q1 s hr; cases hr; exact ⟨rfl, rfl, rfl⟩
  | cons op ops ih =>
    intro e q h os e1 q1 s hr
    simp only [List.map_cons, List.sum_cons] at h
    simp only [OnEva.run, bind, Except.bind] at hr
    cases ha : e.alone E op q with
    | error x => rw [ha] at hr; cases hr
    | ok x =>
      obtain ⟨o, e2, q2, s2⟩ := x
      rw [ha] at hr
      simp only at hr
      cases hb : e2.run E ops q2 with
      | error x => rw [hb] at hr; cases hr
      | ok x =>
        obtain ⟨os', e3, q3, s3⟩ := x
        rw [hb] at hr
        cases hr
        obtain ⟨a1, a2, a3⟩ := alone_before E k u v e op q (by omega) ha
        obtain ⟨b1, b2, b3⟩ := ih e2 q2 (by omega) hb
        exact ⟨by simp only [OnEva.run, a1, b1, bind, Except.bind], by simp only [List.map_cons, List.sum_cons]; omega, by rw [b3, a3]⟩

/-- The state `e'` is the state `e` with `D` added to the labels of the marked wires. -/
structure Apart (E : Env) (m : List Bool) (D : Block) (e e' : OnEva) : Prop where
  gid : e'.gid = e.gid
  pv : e'.pubValues = e.pubValues
  cnt : e'.revealCounter = e.revealCounter
  len : e.wires.length = m.length
  len' : e'.wires.length = m.length
  get : ∀ i, e'.get E i = e.get E i ^^^ sel (Circuit.get m i) D
  tab : ∀ g, e.gid ≤ g → vget e'.gc (g * 2) = vget e.gc (g * 2) ∧ vget e'.gc (g * 2 + 1) = vget e.gc (g * 2 + 1)

theorem Apart.push {E : Env} {m : List Bool} {D : Block} {e e' : OnEva} (h : Apart E m D e e') (x x' : Block) (b : Bool) (hx : x' = x ^^^ sel b D) (n : Nat) :
    Apart E (m ++ [b]) D (OnEva.push { e with gid := e.gid + n } x) (OnEva.push { e' with gid := e'.gid + n } x') where
  gid := congrArg (· + n) h.gid
  pv := h.pv
  cnt := h.cnt
  len := by simp [OnEva.push, h.len]
  len' := by simp [OnEva.push, h.len']
  get := by
    intro i
    have g := h.get i
    unfold OnEva.get at g ⊢
    simp only [OnEva.push]
    unfold Circuit.get at g ⊢
    rw [getD_push, getD_push, getD_push, h.len, h.len']
    split
    · exact hx
    · exact g
  tab := fun g hg => h.tab g (by have : e.gid + n ≤ g := hg; omega)

theorem lsb_apart {D x : Block} {b : Bool} (hD : lsb D = false) : lsb (x ^^^ sel b D) = lsb x := by
  rw [lsb_xor]
  cases b
  · simp [sel, lsb]
  · simp [sel, hD]

theorem reveal_apart {D : Block} (hD : lsb D = false) (p : Party) (pv : List Bool) (f : Nat → Block) (b : Nat → Bool) : ∀ (ws : List Nat) (c : Nat) (q : List Msg),
    onEvaReveal p pv c (ws.map fun i => f i ^^^ sel (b i) D) q = onEvaReveal p pv c (ws.map f) q := by
  intro ws
  induction ws with
  | nil => intro c q; rfl
  | cons w ws ih =>
    intro c q
    cases p <;> simp only [List.map_cons, onEvaReveal, lsb_apart hD, ih]

/-- Two messages are the same, or two digests of labels that differ by `D` in some places. -/
inductive Like (E : Env) (D : Block) : Msg → Msg → Prop
  | same (x : Msg) : Like E D x x
  | dig (ls : List (Block × Bool)) : Like E D (.dig (E.hash (ls.map (·.1)))) (.dig (E.hash (ls.map fun p => p.1 ^^^ sel p.2 D)))

theorem like_refl (E : Env) (D : Block) : ∀ s : List Msg, List.Forall₂ (Like E D) s s
  | [] => .nil
  | x :: s => .cons (.same x) (like_refl E D s)

/-- What the evaluator sends at an opening. -/
def answer (E : Env) (p : Party) (bs : List Bool) (ls : List Block) : List Msg := if p = .pub then [.bits bs, .dig (E.hash ls)] else []

theorem alone_apart (E : Env) {m : List Bool} {D : Block} (hD : lsb D = false) {e e' : OnEva} (h : Apart E m D e e') (op : Op)
    (hq : ∀ i j, op = .and i j → Circuit.get m i = false ∧ Circuit.get m j = false) (q : List Msg) {o e1 q1 s} (hr : e.alone E op q = .ok (o, e1, q1, s)) :
    ∃ e1' s', e'.alone E op q = .ok (o, e1', q1, s') ∧ Apart E (mark m op) D e1 e1' ∧ List.Forall₂ (Like E D) s s'
      ∧ ∀ ws, op = .reveal .pub ws → ∃ bs, o = some bs ∧ s = answer E .pub bs (ws.map (e.get E))
        ∧ s' = answer E .pub bs (ws.map fun i => e.get E i ^^^ sel (Circuit.get m i) D) := by
  have z : ∀ x : Block, x = x ^^^ sel false D := by intro x; simp [sel]
  cases op with
  | pub b =>
    cases hr
    exact ⟨_, _, rfl, h.push _ _ false (z _) 0, .nil, by simp⟩
  | xor i j =>
    cases hr
    refine ⟨_, _, rfl, h.push _ _ (Circuit.get m i ^^ Circuit.get m j) ?_ 0, .nil, by simp⟩
    show e'.get E i ^^^ e'.get E j = e.get E i ^^^ e.get E j ^^^ _
    rw [h.get i, h.get j]
    have : sel (Circuit.get m i ^^ Circuit.get m j) D = sel (Circuit.get m i) D ^^^ sel (Circuit.get m j) D := by
      rw [sel_xor]
    rw [this]
    ac_rfl
  | not i =>
    cases hr
    exact ⟨_, _, rfl, h.push _ _ (Circuit.get m i) (h.get i) 0, .nil, by simp⟩
  | inA b =>
    simp only [OnEva.alone, OnEva.step, bind, Except.bind] at hr ⊢
    split at hr
    · cases hr
    · cases hr
      exact ⟨_, _, rfl, h.push _ _ false (z _) 0, .nil, by simp⟩
  | inB b =>
    simp only [OnEva.alone, bind, Except.bind] at hr ⊢
    split at hr
    · cases hr
    · cases hr
      exact ⟨_, _, rfl, h.push _ _ false (z _) 0, .nil, by simp⟩
  | and i j =>
    obtain ⟨mi, mj⟩ := hq i j rfl
    have gi : e'.get E i = e.get E i := by rw [h.get i, mi]; exact (z _).symm
    have gj : e'.get E j = e.get E j := by rw [h.get j, mj]; exact (z _).symm
    obtain ⟨t1, t2⟩ := h.tab e.gid (Nat.le_refl _)
    simp only [OnEva.alone, OnEva.step, bind, Except.bind] at hr ⊢
    rw [h.gid, t1, t2, gi, gj]
    split at hr
    · cases hr
    · split at hr
      · cases hr
      · cases hr
        rename_i a _ _ b _
        have := h.push (evalGate E (e.get E i) (e.get E j) (a, b) e.gid) _ false (z _) 1
        rw [h.gid] at this
        exact ⟨_, _, rfl, this, .nil, by simp⟩
  | reveal p ws =>
    have hw : ws.map (e'.get E) = ws.map fun i => e.get E i ^^^ sel (Circuit.get m i) D := List.map_congr_left fun i _ => h.get i
    simp only [OnEva.alone, OnEva.step, bind, Except.bind] at hr ⊢
    rw [hw, h.pv, h.cnt, reveal_apart hD]
    split at hr
    · cases hr
    · rename_i x hx
      cases hr
      obtain ⟨eb, c, q2, s2⟩ := x
      refine ⟨_, _, rfl, ⟨h.gid, rfl, rfl, h.len, h.len', h.get, h.tab⟩, ?_, ?_⟩
      · refine List.rel_append (like_refl E D s2) ?_
        split
        · refine .cons (.same _) (.cons ?_ .nil)
          have := Like.dig (E := E) (D := D) (ws.map fun i => (e.get E i, Circuit.get m i))
          simpa [List.map_map, Function.comp_def] using this
        · exact .nil
      · intro ws' hp
        cases hp
        have s2n : s2 = [] := by
          have gen : ∀ (ls : List Block) (c : Nat) (q : List Msg) {bs c' q' s}, onEvaReveal .pub e.pubValues c ls q = .ok (bs, c', q', s) → s = [] := by
            intro ls
            induction ls with
            | nil => intro c q bs c' q' s h; cases h; rfl
            | cons l ls ih =>
              intro c q bs c' q' s h
              simp only [onEvaReveal, bind, Except.bind] at h
              split at h
              · cases h
              · split at h
                · cases h
                · rename_i y hy
                  cases h
                  exact ih _ _ hy
          exact gen _ _ _ hx
        subst s2n
        exact ⟨eb, rfl, rfl, rfl⟩

theorem run_apart (E : Env) {D : Block} (hD : lsb D = false) : ∀ (ops : List Op) (m : List Bool) (e e' : OnEva), Apart E m D e e' → Quiet m ops → ∀ (q : List Msg) {os e1 q1 s},
    e.run E ops q = .ok (os, e1, q1, s) →
    ∃ e1' s', e'.run E ops q = .ok (os, e1', q1, s') ∧ Apart E (ops.foldl mark m) D e1 e1' ∧ List.Forall₂ (Like E D) s s' := by
  intro ops
  induction ops with
  | nil => intro m e e' h _ q os e1 q1 s hr; cases hr; exact ⟨e', [], rfl, h, .nil⟩
  | cons op ops ih =>
    intro m e e' h hq q os e1 q1 s hr
    simp only [OnEva.run, bind, Except.bind] at hr
    cases ha : e.alone E op q with
    | error x => rw [ha] at hr; cases hr
    | ok x =>
      obtain ⟨o, e2, q2, s2⟩ := x
      rw [ha] at hr
      simp only at hr
      cases hb : e2.run E ops q2 with
      | error x => rw [hb] at hr; cases hr
      | ok x =>
        obtain ⟨os', e3, q3, s3⟩ := x
        rw [hb] at hr
        cases hr
        obtain ⟨e2', s2', a1, a2, a3, -⟩ := alone_apart E hD h op hq.1 q ha
        obtain ⟨e3', s3', b1, b2, b3⟩ := ih _ e2 e2' a2 hq.2 q2 hb
        exact ⟨e3', s2' ++ s3', by simp only [OnEva.run, a1, b1, bind, Except.bind], b2, List.rel_append a3 b3⟩

theorem run_append (E : Env) (b : List Op) : ∀ (a : List Op) (e : OnEva) (q : List Msg) {os e1 q1 s os' e2 q2 s'}, e.run E a q = .ok (os, e1, q1, s) →
    e1.run E b q1 = .ok (os', e2, q2, s') → e.run E (a ++ b) q = .ok (os ++ os', e2, q2, s ++ s') := by
  intro a
  induction a with
  | nil => intro e q os e1 q1 s os' e2 q2 s' h1 h2; cases h1; exact h2
  | cons op a ih =>
    intro e q os e1 q1 s os' e2 q2 s' h1 h2
    simp only [OnEva.run, bind, Except.bind, List.cons_append] at h1 ⊢
    cases ha : e.alone E op q with
    | error x => rw [ha] at h1; cases h1
    | ok x =>
      obtain ⟨o, e3, q3, s3⟩ := x
      rw [ha] at h1
      simp only at h1 ⊢
      cases hb : e3.run E a q3 with
      | error x => rw [hb] at h1; cases h1
      | ok x =>
        obtain ⟨os4, e4, q4, s4⟩ := x
        rw [hb] at h1
        cases h1
        rw [ih e3 q3 hb h2]
        simp

theorem lsb_both {u v : Block} (hu : lsb u = false) (hv : lsb v = false) (a b : Bool) : lsb (sel a u ^^^ sel b v) = false := by
  have h : ∀ (c : Bool) {x : Block}, lsb x = false → lsb (sel c x) = false := by
    intro c x hx
    cases c
    · simp [sel, lsb]
    · exact hx
  rw [lsb_xor, h a hu, h b hv]
  rfl

/-- Number of wires an operation appends. -/
def adds : Op → Nat
  | .reveal _ _ => 0
  | _ => 1

theorem mark_length (m : List Bool) (op : Op) : (mark m op).length = m.length + adds op := by
  cases op <;> simp [mark, adds]

theorem alone_length (E : Env) (e : OnEva) (op : Op) (q : List Msg) {o e1 q1 s} (h : e.alone E op q = .ok (o, e1, q1, s)) :
    e1.wires.length = e.wires.length + adds op := by
  cases op with
  | pub b => cases h; simp [OnEva.push, adds]
  | xor i j => cases h; simp [OnEva.push, adds]
  | not i => cases h; simp [OnEva.push, adds]
  | inA b =>
    simp only [OnEva.alone, OnEva.step, bind, Except.bind] at h
    split at h
    · cases h
    · cases h; simp [OnEva.push, adds]
  | inB b =>
    simp only [OnEva.alone, bind, Except.bind] at h
    split at h
    · cases h
    · cases h; simp [OnEva.push, adds]
  | and i j =>
    simp only [OnEva.alone, OnEva.step, bind, Except.bind] at h
    split at h
    · cases h
    · split at h
      · cases h
      · cases h; simp [OnEva.push, adds]
  | reveal p ws =>
    simp only [OnEva.alone, OnEva.step, bind, Except.bind] at h
    split at h
    · cases h
    · cases h; rfl

theorem run_length (E : Env) : ∀ (ops : List Op) (e : OnEva) (m : List Bool) (q : List Msg) {os e1 q1 s}, e.wires.length = m.length →
    e.run E ops q = .ok (os, e1, q1, s) → e1.wires.length = (ops.foldl mark m).length := by
  intro ops
  induction ops with
  | nil => intro e m q os e1 q1 s hl h; cases h; exact hl
  | cons op ops ih =>
    intro e m q os e1 q1 s hl h
    simp only [OnEva.run, bind, Except.bind] at h
    cases ha : e.alone E op q with
    | error x => rw [ha] at h; cases h
    | ok x =>
      obtain ⟨o, e2, q2, s2⟩ := x
      rw [ha] at h
      simp only at h
      cases hb : e2.run E ops q2 with
      | error x => rw [hb] at h; cases h
      | ok x =>
        rw [hb] at h
        obtain ⟨os4, e4, q4, s4⟩ := x
        cases h
        exact ih e2 (mark m op) q2 (by rw [alone_length E e op q ha, mark_length, hl]) hb

theorem mark_false (ops : List Op) : ∀ (m : List Bool), (∀ i, Circuit.get m i = false) → ∀ i, Circuit.get (ops.foldl mark m) i = false := by
  induction ops with
  | nil => intro m h; exact h
  | cons op ops ih =>
    intro m h
    refine ih _ fun i => ?_
    have hp : ∀ b, b = false → Circuit.get (m ++ [b]) i = false := by
      intro b hb
      unfold Circuit.get
      rw [getD_push]
      split
      · exact hb
      · exact h i
    cases op with
    | xor i j => exact hp _ (by rw [h, h]; rfl)
    | not i => exact hp _ (h i)
    | reveal p ws => exact h i
    | pub b => exact hp _ rfl
    | inA b => exact hp _ rfl
    | inB b => exact hp _ rfl
    | and i j => exact hp _ rfl

/-- The changed gate: the evaluator gets another label. -/
theorem gate_probe (E : Env) (u v : Block) (e : OnEva) (m : List Bool) (hm : ∀ i, Circuit.get m i = false) (hl : e.wires.length = m.length) (i j : Nat) (q : List Msg)
    {o e1 q1 s} (hr : e.alone E (.and i j) q = .ok (o, e1, q1, s)) :
    ∃ e1', (probedEva e.gid u v e).alone E (.and i j) q = .ok (o, e1', q1, s)
      ∧ Apart E (m ++ [true]) (sel (lsb (e.get E i)) u ^^^ sel (lsb (e.get E j)) v) e1 e1' := by
  simp only [OnEva.alone, OnEva.step, bind, Except.bind] at hr ⊢
  split at hr
  · cases hr
  · rename_i a ha
    split at hr
    · cases hr
    · rename_i b hb
      cases hr
      obtain ⟨v1, v2⟩ := vget_same (u := u) (v := v) ha hb
      have v1' : vget (probedEva e.gid u v e).gc ((probedEva e.gid u v e).gid * 2) = _ := v1
      have v2' : vget (probedEva e.gid u v e).gc ((probedEva e.gid u v e).gid * 2 + 1) = _ := v2
      rw [v1', v2']
      refine ⟨_, rfl, rfl, rfl, rfl, by simp [OnEva.push, hl], by simp [OnEva.push, probedEva, hl], ?_, ?_⟩
      · intro x
        have hx : (probedEva e.gid u v e).wires.getD x (evaConst E false) = e.wires.getD x (evaConst E false) := rfl
        unfold OnEva.get
        simp only [OnEva.push]
        unfold Circuit.get
        rw [getD_push, getD_push, getD_push]
        have hl' : (probedEva e.gid u v e).wires.length = m.length := hl
        rw [hl, hl', hx]
        have hmx := hm x
        unfold Circuit.get at hmx
        rw [hmx]
        split
        · show evalGate E (e.get E i) (e.get E j) (a ^^^ u, b ^^^ v) e.gid = _
          rw [evalGate_rows]
          show _ = evalGate E (e.get E i) (e.get E j) (a, b) e.gid ^^^ (sel (lsb (e.get E i)) u ^^^ sel (lsb (e.get E j)) v)
          rw [BitVec.xor_assoc]
        · show _ = _ ^^^ 0#128
          rw [BitVec.xor_zero]
      · intro g hg
        have hg : e.gid + 1 ≤ g := hg
        exact vget_other (k := e.gid) (g := g) (by omega) u v e.gc

/-- **C81, nothing is noticed.**  Add blocks with lowest bit 0 to the two rows of one gate, whose output gets to no other gate (XOR and NOT do not count).  Whenever the evaluator's
code runs through with the right tables, it runs through with these, on the same messages: it opens the same values and sends the same messages but for the digests of labels at public
openings, where one block is added to some of the labels. -/
theorem C81_unnoticed (E : Env) (u v : Block) (hu : lsb u = false) (hv : lsb v = false) (pre post : List Op) (i j : Nat) (e : OnEva) (q : List Msg)
    (hq : Quiet (pre.foldl mark (List.replicate e.wires.length false) ++ [true]) post) {os e1 q1 s}
    (hr : e.run E (pre ++ .and i j :: post) q = .ok (os, e1, q1, s)) :
    ∃ D e1' s', lsb D = false ∧ (probedEva (e.gid + (pre.map gates).sum) u v e).run E (pre ++ .and i j :: post) q = .ok (os, e1', q1, s')
      ∧ List.Forall₂ (Like E D) s s' ∧ Apart E (post.foldl mark (pre.foldl mark (List.replicate e.wires.length false) ++ [true])) D e1 e1' := by
  have split : ∀ (a : List Op) (b : List Op) (e : OnEva) (q : List Msg) {os e1 q1 s}, e.run E (a ++ b) q = .ok (os, e1, q1, s) →
      ∃ os1 e2 q2 s1 os2 s2, e.run E a q = .ok (os1, e2, q2, s1) ∧ e2.run E b q2 = .ok (os2, e1, q1, s2) ∧ os = os1 ++ os2 ∧ s = s1 ++ s2 := by
    intro a
    induction a with
    | nil => intro b e q os e1 q1 s h; exact ⟨[], e, q, [], os, s, rfl, h, rfl, rfl⟩
    | cons op a ih =>
      intro b e q os e1 q1 s h
      simp only [List.cons_append, OnEva.run, bind, Except.bind] at h
      cases ha : e.alone E op q with
      | error x => rw [ha] at h; cases h
      | ok x =>
        obtain ⟨o, e2, q2, s2⟩ := x
        rw [ha] at h
        simp only at h
        cases hb : e2.run E (a ++ b) q2 with
        | error x => rw [hb] at h; cases h
        | ok x =>
          rw [hb] at h
          obtain ⟨os4, e4, q4, s4⟩ := x
          cases h
          obtain ⟨os1, e3, q3, s1, os2, s2', h1, h2, rfl, rfl⟩ := ih b e2 q2 hb
          exact ⟨o.toList ++ os1, e3, q3, s2 ++ s1, os2, s2', by simp only [OnEva.run, ha, h1, bind, Except.bind], h2, by simp, by simp⟩
  obtain ⟨os1, e2, q2, s1, os2, s2, h1, h2, rfl, rfl⟩ := split pre _ e q hr
  obtain ⟨os3, e3, q3, s3, os4, s4, h3, h4, rfl, rfl⟩ := split [.and i j] post e2 q2 h2
  obtain ⟨a1, a2, a3⟩ := run_before E (e.gid + (pre.map gates).sum) u v pre e q (Nat.le_refl _) h1
  have hlen := run_length E pre e (List.replicate e.wires.length false) q (by simp) h1
  have hmf := mark_false pre (List.replicate e.wires.length false) (by
    intro i; unfold Circuit.get; rw [List.getD_eq_getElem?_getD, List.getElem?_replicate]; split <;> rfl)
  simp only [OnEva.run, bind, Except.bind] at h3
  cases hg : e2.alone E (.and i j) q2 with
  | error x => rw [hg] at h3; cases h3
  | ok x =>
    obtain ⟨o, e4, q4, s5⟩ := x
    rw [hg] at h3
    cases h3
    obtain ⟨e4', g1, g2⟩ := gate_probe E u v e2 _ hmf hlen i j q2 hg
    have hD := lsb_both hu hv (lsb (e2.get E i)) (lsb (e2.get E j))
    obtain ⟨e5', s6, r1, r2, r3⟩ := run_apart E hD post _ e4 e4' g2 hq q4 h4
    refine ⟨_, e5', s1 ++ (s5 ++ s6), hD, ?_, List.rel_append (like_refl E _ s1) (List.rel_append ?_ r3), r2⟩
    · have := run_append E (.and i j :: post) pre _ q a1 (os' := o.toList ++ os4) (e2 := e5') (q2 := q1) (s' := s5 ++ s6) (by
        rw [← a2]
        simp only [OnEva.run, bind, Except.bind]
        rw [g1]
        simp only
        rw [r1])
      rw [this]
      simp
    · simpa using like_refl E _ s5

theorem prefix_run (E : Env) (f : OffNet) : ∀ (pre rest : List Op) (m : OffNet) (n : OnNet) (w : List Bool), m.run E (pre ++ rest) = .ok f → Replay E f m n w →
    ∃ os n' m' l s, n.run E pre = .ok (os, n') ∧ m'.run E rest = .ok f ∧ Replay E f m' n' (pre.foldl Circuit.next w) ∧ n.recordEva E pre = .ok (l, n')
      ∧ (∀ r, n.eva.run E (pre.map blindA) (l ++ r) = .ok (theirs os, n'.eva, r, s)) ∧ List.Forall₂ RevealOk os (Circuit.opened w pre) := by
  intro pre
  induction pre with
  | nil => intro rest m n w h r; exact ⟨[], n, m, [], [], rfl, h, r, rfl, fun _ => rfl, .nil⟩
  | cons op pre ih =>
    intro rest m n w hf r
    obtain ⟨a1, a2, -⟩ := off_step E m r.off op
    simp only [List.cons_append, OffNet.run, a1, bind, Except.bind] at hf
    have pf : Prefix (offNext E m op) f := by
      obtain ⟨y, y1, _, y2, _⟩ := off_run E (pre ++ rest) _ a2
      rw [hf] at y1; cases y1; exact y2
    obtain ⟨o, n1, s1, r1, o1⟩ := on_step E f m n w op op r (shape_refl op) pf
    obtain ⟨g, s, eb, u, gb, x1, x2, x3, x4⟩ := on_ok s1
    obtain ⟨os, n', m', l, t, i1, i2, i3, i4, i5, i6⟩ := ih rest _ n1 _ hf r1
    refine ⟨o.toList ++ os, n', m', s ++ n.chosen E op ++ l, u ++ t, ?_, i2, i3, ?_, ?_, ?_⟩
    · simp only [OnNet.run, s1, i1, bind, Except.bind]
    · simp only [OnNet.recordEva, bind, Except.bind, x1, x2, x3]
      rw [i4]
    · intro q
      have al := alone_frame E n op r.toEva (send_inB x1) x2 (l ++ q)
      rw [r1.toEva, List.nil_append] at al
      have : theirs (o.toList ++ os) = eb.toList ++ theirs os := by
        have hj : theirs o.toList = eb.toList := by
          rw [x4]; exact join_theirs x2 x3
        rw [← hj]; simp [theirs]
      rw [this]
      simp only [List.map_cons, OnEva.run, List.append_assoc, bind, Except.bind]
      rw [List.append_assoc] at al
      rw [al]
      simp only
      rw [i5 q]
    · rw [opened_cons]
      exact List.rel_append o1 i6

theorem record_append (E : Env) (b : List Op) : ∀ (a : List Op) (n : OnNet) {l n1 l' n2}, n.recordEva E a = .ok (l, n1) → n1.recordEva E b = .ok (l', n2) →
    n.recordEva E (a ++ b) = .ok (l ++ l', n2) := by
  intro a
  induction a with
  | nil => intro n l n1 l' n2 h1 h2; cases h1; exact h2
  | cons op a ih =>
    intro n l n1 l' n2 h1 h2
    simp only [List.cons_append, OnNet.recordEva, bind, Except.bind] at h1 ⊢
    split at h1
    · cases h1
    · split at h1
      · cases h1
      · split at h1
        · cases h1
        · split at h1
          · cases h1
          · rename_i c hc
            cases h1
            rw [ih _ hc h2]
            simp

theorem lin_gates (lin : List Op) (h : ∀ op ∈ lin, IsLinear op) : ∀ m, Quiet m lin := by
  induction lin with
  | nil => intro m; trivial
  | cons op lin ih =>
    intro m
    refine ⟨?_, ih (fun o ho => h o (List.mem_cons_of_mem _ ho)) _⟩
    intro i j hop
    subst hop
    exact absurd (h (.and i j) (by simp)) (by simp [IsLinear])

theorem blind_gates (ops : List Op) : (ops.map blindA).map gates = ops.map gates := by
  rw [List.map_map]
  exact List.map_congr_left fun op _ => by cases op <;> rfl

theorem blind_mark (ops : List Op) : ∀ m, (ops.map blindA).foldl mark m = ops.foldl mark m := by
  induction ops with
  | nil => intro m; rfl
  | cons op ops ih =>
    intro m
    simp only [List.map_cons, List.foldl_cons]
    rw [ih]
    cases op <;> rfl

theorem blind_lin (lin : List Op) (h : ∀ op ∈ lin, IsLinear op) : lin.map blindA = lin := by
  conv_rhs => rw [← List.map_id lin]
  refine List.map_congr_left fun op ho => ?_
  cases op <;> first | rfl | exact absurd (h _ ho) (by simp [IsLinear])

/-- Which wires contain the output of the gate after `pre` an odd number of times. -/
def carries (pre lin : List Op) : List Bool := lin.foldl mark (pre.foldl mark [] ++ [true])

theorem run_single (E : Env) (e : OnEva) (op : Op) (q : List Msg) :
    e.run E [op] q = (match e.alone E op q with | .ok (o, e1, q1, s) => .ok (o.toList, e1, q1, s) | .error x => .error x) := by
  simp only [OnEva.run, bind, Except.bind]
  cases e.alone E op q with
  | error x => rfl
  | ok x => simp

theorem run_one {E : Env} {e : OnEva} {op : Op} {q : List Msg} {os e1 q1 s} (h : e.run E ([op].map blindA) q = .ok (os, e1, q1, s)) :
    ∃ o, e.alone E (blindA op) q = .ok (o, e1, q1, s) ∧ os = o.toList := by
  simp only [List.map_cons, List.map_nil] at h
  rw [run_single] at h
  cases ha : e.alone E (blindA op) q with
  | error x => rw [ha] at h; cases h
  | ok x => rw [ha] at h; cases h; exact ⟨_, rfl, rfl⟩

theorem reveal_wires {E : Env} {e : OnEva} {p : Party} {ws : List Nat} {q : List Msg} {o e1 q1 s} (h : e.alone E (.reveal p ws) q = .ok (o, e1, q1, s)) :
    e1.wires = e.wires := by
  simp only [OnEva.alone, OnEva.step, bind, Except.bind] at h
  split at h
  · cases h
  · cases h; rfl

theorem opened_append (a b : List Op) : ∀ w, Circuit.opened w (a ++ b) = Circuit.opened w a ++ Circuit.opened (a.foldl Circuit.next w) b := by
  induction a with
  | nil => intro w; rfl
  | cons op a ih =>
    intro w
    cases op <;> simp [Circuit.opened, ih, Circuit.next, Circuit.newWire]

/-- **C81, what the garbler gets.**  The program ends with a gate, XORs and NOTs and a public opening.  The garbler follows the code but for the blocks `u`, `v` (lowest bit 0) added to
the rows of that gate.  The offline phase runs through; the online code of the evaluator opens the right values, on the messages of the honest run; and the last thing it
sends are these values and the digest of the labels known to the garbler with a block added on the wires that contain the output of the gate.  The added block
tells which of `u`, `v` the operands select. -/
theorem C81_digest (E : Env) (d u v : Block) (hu : lsb u = false) (hv : lsb v = false) (pre lin : List Op) (i j : Nat) (ws : List Nat) (hlin : ∀ op ∈ lin, IsLinear op)
    (ops₀ : List Op) (hs : List.Forall₂ SameShape ops₀ (pre ++ [Op.and i j] ++ lin ++ [Op.reveal .pub ws])) :
    ∃ f os₁ n₁ os n l e' s,
      (start d).run E ops₀ = .ok f
      ∧ (start d).runProbe E (pre.map gates).sum u v ops₀ = .ok (probed (pre.map gates).sum u v f)
      ∧ (syncOnline f).run E pre = .ok (os₁, n₁)
      ∧ (syncOnline f).run E (pre ++ [Op.and i j] ++ lin ++ [Op.reveal .pub ws]) = .ok (os, n)
      ∧ (syncOnline f).recordEva E (pre ++ [Op.and i j] ++ lin ++ [Op.reveal .pub ws]) = .ok (l, n)
      ∧ List.Forall₂ RevealOk os (Circuit.opened [] (pre ++ [Op.and i j] ++ lin ++ [Op.reveal .pub ws]))
      ∧ (syncOnline (probed (pre.map gates).sum u v f)).eva.run E ((pre ++ [Op.and i j] ++ lin ++ [Op.reveal .pub ws]).map blindA) l
        = .ok (theirs os, e', [], s ++ answer E .pub (ws.map (Circuit.get ((pre ++ [Op.and i j] ++ lin).foldl Circuit.next [])))
          (ws.map fun x => n.gen.get E x ^^^ sel (Circuit.get ((pre ++ [Op.and i j] ++ lin).foldl Circuit.next []) x) (setDelta d)
            ^^^ sel (Circuit.get (carries pre lin) x)
              (sel (Circuit.get (pre.foldl Circuit.next []) i ^^ lsb (n₁.gen.get E i)) u ^^^ sel (Circuit.get (pre.foldl Circuit.next []) j ^^ lsb (n₁.gen.get E j)) v))) := by
  set k := (pre.map gates).sum with hk
  obtain ⟨f, hf, hfp⟩ := off_runProbe E k u v ops₀ (start d) rfl rfl
  have hf0 := hf
  rw [off_shape E _ hs] at hf
  obtain ⟨f', e, _, _, hd⟩ := off_run E (pre ++ [Op.and i j] ++ lin ++ [Op.reveal .pub ws]) (start d) rfl
  have : f' = f := by rw [e] at hf; exact Except.ok.inj hf
  subst this
  have hf1 : (start d).run E (pre ++ ([Op.and i j] ++ (lin ++ [Op.reveal .pub ws]))) = .ok f' := by
    rw [← List.append_assoc, ← List.append_assoc]; exact hf
  obtain ⟨os1, n1, m1, l1, s1, a1, a2, a3, a4, a5, a6⟩ := prefix_run E f' pre _ _ _ [] hf1 (replay_start E d f' hd)
  obtain ⟨os2, n2, m2, l2, s2, b1, b2, b3, b4, b5, b6⟩ := prefix_run E f' [Op.and i j] _ _ _ _ a2 a3
  obtain ⟨os3, n3, m3, l3, s3, c1, c2, c3, c4, c5, c6⟩ := prefix_run E f' lin _ _ _ _ b2 b3
  have c2' : m3.run E ([Op.reveal .pub ws] ++ []) = .ok f' := by rw [List.append_nil]; exact c2
  obtain ⟨os4, n4, m4, l4, s4, d1, d2, d3, d4, d5, d6⟩ := prefix_run E f' [Op.reveal .pub ws] [] _ _ _ c2' c3
  have hm4 : m4 = f' := by simp only [OffNet.run, Except.ok.injEq] at d2; exact d2
  subst hm4
  have hw4 : [Op.reveal .pub ws].foldl Circuit.next (lin.foldl Circuit.next ([Op.and i j].foldl Circuit.next (pre.foldl Circuit.next [])))
      = (pre ++ [Op.and i j] ++ lin).foldl Circuit.next [] := by
    rw [List.foldl_append, List.foldl_append]
    simp only [List.foldl_cons, List.foldl_nil, Circuit.next, Circuit.newWire, Option.toList_none, List.append_nil]
  rw [hw4] at d3
  have hw3 : lin.foldl Circuit.next ([Op.and i j].foldl Circuit.next (pre.foldl Circuit.next [])) = (pre ++ [Op.and i j] ++ lin).foldl Circuit.next [] := by
    rw [List.foldl_append, List.foldl_append]
  rw [hw3] at d6
  -- the honest steps of the evaluator
  obtain ⟨o2, g2, t2⟩ := run_one (b5 (l3 ++ l4))
  obtain ⟨o4, g4, t4⟩ := run_one (d5 [])
  have hwires := reveal_wires g4
  -- the evaluator with the changed table
  have p1 := run_before E k u v (pre.map blindA) (syncOnline m4).eva (l1 ++ (l2 ++ (l3 ++ l4))) (by rw [blind_gates, hk]; exact Nat.le_of_eq (Nat.zero_add _)) (a5 _)
  obtain ⟨p1, hgid, -⟩ := p1
  rw [blind_gates] at hgid
  have hgid : n1.eva.gid = k := by rw [hgid, hk]; exact Nat.zero_add _
  have hlen := run_length E (pre.map blindA) (syncOnline m4).eva [] _ rfl (a5 (l2 ++ (l3 ++ l4)))
  rw [blind_mark] at hlen
  have hmf := mark_false pre [] (by intro i; rfl)
  obtain ⟨e2', p2, q2⟩ := gate_probe E u v n1.eva _ hmf hlen i j _ g2
  rw [hgid] at p2
  have hD := lsb_both hu hv (lsb (n1.eva.get E i)) (lsb (n1.eva.get E j))
  have c5' := c5 l4
  rw [blind_lin lin hlin] at c5'
  obtain ⟨e3', s3', p3, q3, -⟩ := run_apart E hD lin _ n2.eva e2' q2 (lin_gates lin hlin _) _ c5'
  obtain ⟨e4', s4', p4, -, -, q4⟩ := alone_apart E hD q3 (.reveal .pub ws) (by simp) (l4 ++ []) g4
  obtain ⟨bs, hbs, -, hs4⟩ := q4 ws rfl
  -- the values
  have hv4 : bs = ws.map (Circuit.get ((pre ++ [Op.and i j] ++ lin).foldl Circuit.next [])) := by
    rw [hbs] at t4
    have ho : Circuit.opened ((pre ++ [Op.and i j] ++ lin).foldl Circuit.next []) [Op.reveal .pub ws]
        = [(.pub, ws.map (Circuit.get ((pre ++ [Op.and i j] ++ lin).foldl Circuit.next [])))] := rfl
    rw [ho] at d6
    cases d6 with
    | cons hx hy =>
      cases hy
      obtain ⟨x1, -, x3⟩ := hx
      simp only [theirs, List.map_cons, List.map_nil, Option.toList_some, List.cons.injEq, and_true] at t4
      rw [← t4]
      exact x3 (by rw [x1]; simp)
  have hside : ∀ x, lsb (n1.eva.get E x) = (Circuit.get (pre.foldl Circuit.next []) x ^^ lsb (n1.gen.get E x)) := by
    intro x
    have : n1.gen.get E x = m1.gen.get E x := by unfold OnGen.get OffGen.get; rw [a3.gwires, a3.ndelta]
    rw [a3.rel x, lsb_xor, lsb_sel _ _ a3.delta, this]
    cases lsb (m1.gen.get E x) <;> cases Circuit.get (pre.foldl Circuit.next []) x <;> rfl
  have hlab : ∀ x, n3.eva.get E x = n4.gen.get E x ^^^ sel (Circuit.get ((pre ++ [Op.and i j] ++ lin).foldl Circuit.next []) x) (setDelta d) := by
    intro x
    have h1 : n4.gen.get E x = m4.gen.get E x := by unfold OnGen.get OffGen.get; rw [d3.gwires, d3.ndelta]
    have h2 : n3.eva.get E x = n4.eva.get E x := by unfold OnEva.get; rw [hwires]
    rw [h2, d3.rel x, h1, hd]
    rfl
  refine ⟨m4, os1, n1, os1 ++ os2 ++ os3 ++ os4, n4, l1 ++ l2 ++ l3 ++ l4, e4', s1 ++ s2 ++ s3', hf0, hfp, a1, ?_, ?_, ?_, ?_⟩
  · rw [on_run_append, on_run_append, on_run_append, a1]
    simp only [bind, Except.bind]
    rw [b1]
    simp only
    rw [c1]
    simp only
    rw [d1]
  · exact record_append E _ _ _ (record_append E _ _ _ (record_append E _ _ _ a4 b4) c4) d4
  · rw [opened_append, opened_append, opened_append]
    refine List.rel_append (List.rel_append (List.rel_append a6 b6) ?_) ?_
    · rw [List.foldl_append]; exact c6
    · exact d6
  · have r1 := run_append E [Op.and i j] (pre.map blindA) _ _ p1 (by rw [run_single, p2])
    have r2 := run_append E lin _ _ _ r1 p3
    have r3 := run_append E [Op.reveal .pub ws] _ _ _ r2 (by rw [run_single, ← List.append_nil l4, p4])
    rw [List.map_append, List.map_append, List.map_append, blind_lin lin hlin]
    have hq : l1 ++ l2 ++ l3 ++ l4 = l1 ++ (l2 ++ (l3 ++ l4)) := by simp
    rw [hq]
    have ht : theirs (os1 ++ os2 ++ os3 ++ os4) = theirs os1 ++ o2.toList ++ theirs os3 ++ o4.toList := by
      rw [← t2, ← t4]; simp [theirs]
    rw [ht, ← hv4]
    refine r3.trans ?_
    have hl : (ws.map fun x => n4.gen.get E x ^^^ sel (Circuit.get ((pre ++ [Op.and i j] ++ lin).foldl Circuit.next []) x) (setDelta d)
        ^^^ sel (Circuit.get (carries pre lin) x)
          (sel (Circuit.get (pre.foldl Circuit.next []) i ^^ lsb (n1.gen.get E i)) u ^^^ sel (Circuit.get (pre.foldl Circuit.next []) j ^^ lsb (n1.gen.get E j)) v))
        = ws.map fun x => n3.eva.get E x ^^^ sel (Circuit.get (carries pre lin) x) (sel (lsb (n1.eva.get E i)) u ^^^ sel (lsb (n1.eva.get E j)) v) := by
      refine List.map_congr_left fun x _ => ?_
      rw [hlab x, hside i, hside j]
    rw [hl, hs4]
    rfl

/-- What the garbler compares the digest with if it thinks that the first operand is `c`: its own labels, the opened values and its own block. -/
def candidate (g : OnGen) (E : Env) (delta : Block) (bs m : List Bool) (p : Bool) (u : Block) (ws : List Nat) (c : Bool) : List Block :=
  (ws.zip bs).map fun x => g.get E x.1 ^^^ sel x.2 delta ^^^ sel (Circuit.get m x.1) (sel (c ^^ p) u)

theorem zip_map {α β γ : Type} (f : α × β → γ) (g : α → β) : ∀ l : List α, (l.zip (l.map g)).map f = l.map fun x => f (x, g x)
  | [] => rfl
  | x :: l => by simp [zip_map f g l]

/-- **C81, the bit.**  With one block added to the first row: if the digests of the two candidates differ, the digest the evaluator sends is that of the candidate with the value of the
first operand.  The candidates differ if the block is not zero and one of the opened wires carries the output of the gate. -/
theorem C81_bit (E : Env) (d u : Block) (hu : lsb u = false) (pre lin : List Op) (i j : Nat) (ws : List Nat) (hlin : ∀ op ∈ lin, IsLinear op)
    (ops₀ : List Op) (hs : List.Forall₂ SameShape ops₀ (pre ++ [Op.and i j] ++ lin ++ [Op.reveal .pub ws])) :
    ∃ (f : OffNet) (os₁ : List (Party × List Bool × List Bool)) (n₁ : OnNet) (os : List (Party × List Bool × List Bool)) (n : OnNet) (l : List Msg) (e' : OnEva)
      (s : List Msg) (bs : List Bool) (dig : Nat),
      (start d).run E ops₀ = .ok f
      ∧ (start d).runProbe E (pre.map gates).sum u 0 ops₀ = .ok (probed (pre.map gates).sum u 0 f)
      ∧ (syncOnline f).run E pre = .ok (os₁, n₁)
      ∧ (syncOnline f).run E (pre ++ [Op.and i j] ++ lin ++ [Op.reveal .pub ws]) = .ok (os, n)
      ∧ (syncOnline f).recordEva E (pre ++ [Op.and i j] ++ lin ++ [Op.reveal .pub ws]) = .ok (l, n)
      ∧ List.Forall₂ RevealOk os (Circuit.opened [] (pre ++ [Op.and i j] ++ lin ++ [Op.reveal .pub ws]))
      ∧ (syncOnline (probed (pre.map gates).sum u 0 f)).eva.run E ((pre ++ [Op.and i j] ++ lin ++ [Op.reveal .pub ws]).map blindA) l
        = .ok (theirs os, e', [], s ++ [.bits bs, .dig dig])
      ∧ bs = ws.map (Circuit.get ((pre ++ [Op.and i j] ++ lin).foldl Circuit.next []))
      ∧ (E.hash (candidate n.gen E (setDelta d) bs (carries pre lin) (lsb (n₁.gen.get E i)) u ws true)
          ≠ E.hash (candidate n.gen E (setDelta d) bs (carries pre lin) (lsb (n₁.gen.get E i)) u ws false) →
        ∀ c, dig = E.hash (candidate n.gen E (setDelta d) bs (carries pre lin) (lsb (n₁.gen.get E i)) u ws c) ↔ c = Circuit.get (pre.foldl Circuit.next []) i)
      ∧ (u ≠ 0 → (∃ x ∈ ws, Circuit.get (carries pre lin) x = true) →
        candidate n.gen E (setDelta d) bs (carries pre lin) (lsb (n₁.gen.get E i)) u ws true ≠ candidate n.gen E (setDelta d) bs (carries pre lin) (lsb (n₁.gen.get E i)) u ws false) := by
  obtain ⟨f, os₁, n₁, os, n, l, e', s, h1, h2, h3, h4, h5, h6, h7⟩ := C81_digest E d u 0 hu (by rfl) pre lin i j ws hlin ops₀ hs
  refine ⟨f, os₁, n₁, os, n, l, e', s, _, _, h1, h2, h3, h4, h5, h6, h7, rfl, ?_, ?_⟩
  · intro hne c
    have hc : ∀ c, candidate n.gen E (setDelta d) (ws.map (Circuit.get ((pre ++ [Op.and i j] ++ lin).foldl Circuit.next []))) (carries pre lin) (lsb (n₁.gen.get E i)) u ws c
        = ws.map fun x => n.gen.get E x ^^^ sel (Circuit.get ((pre ++ [Op.and i j] ++ lin).foldl Circuit.next []) x) (setDelta d)
          ^^^ sel (Circuit.get (carries pre lin) x) (sel (c ^^ lsb (n₁.gen.get E i)) u) := by
      intro c
      unfold candidate
      rw [zip_map]
    have hz : ∀ b, sel b (0 : Block) = 0#128 := by intro b; cases b <;> rfl
    rw [hc, hc] at hne
    rw [hc]
    simp only [hz, BitVec.xor_zero]
    generalize Circuit.get (pre.foldl Circuit.next []) i = a at hne ⊢
    cases a <;> cases c
    · exact ⟨fun _ => rfl, fun _ => rfl⟩
    · exact ⟨fun h => absurd h.symm hne, nofun⟩
    · exact ⟨fun h => absurd h hne, nofun⟩
    · exact ⟨fun _ => rfl, fun _ => rfl⟩
  · rintro hu0 ⟨x, hx, hm⟩ he
    unfold candidate at he
    rw [zip_map, zip_map] at he
    have := List.map_inj_left.1 he x hx
    simp only [hm] at this
    have h2 := (BitVec.xor_right_inj _).1 this
    cases hb : lsb (n₁.gen.get E i) <;> rw [hb] at h2 <;> simp [sel] at h2
    · exact hu0 h2
    · exact hu0 h2.symm

theorem adder_value : ∀ a b c a' b' : Bool, [10].map (Circuit.get (([Op.inB a, .inB b, .inB c, .inB a', .inB b', .xor 0 2, .xor 1 2] ++ [Op.and 5 6]
    ++ [Op.xor 2 7, .xor 3 4, .xor 8 9]).foldl Circuit.next [])) = [((a ^^ c) && (b ^^ c)) ^^ c ^^ (a' ^^ b')] := by decide

/-- **C81, the top of an adder** (`c = c ^ t` after the last gate `t = (a ^ c) & (b ^ c)`, then the highest sum bit `a' ^ b' ^ c`), whose sum is opened: the gate gets to no other gate, and the opened bit
carries it.  With a digest without collisions the garbler learns `a ^ c`. -/
theorem C81_adder (E : Env) (d u : Block) (hu : lsb u = false) (hu0 : u ≠ 0) (hinj : Function.Injective E.hash) (a b c a' b' : Bool) :
    let ops := [Op.inB a, .inB b, .inB c, .inB a', .inB b', .xor 0 2, .xor 1 2] ++ [Op.and 5 6] ++ [.xor 2 7, .xor 3 4, .xor 8 9] ++ [Op.reveal .pub [10]]
    ∃ (f : OffNet) (n₁ n : OnNet) (l : List Msg) (e' : OnEva) (s : List Msg) (dig : Nat), (start d).runProbe E 0 u 0 ops = .ok (probed 0 u 0 f)
      ∧ (syncOnline f).run E [.inB a, .inB b, .inB c, .inB a', .inB b', .xor 0 2, .xor 1 2] = .ok ([], n₁)
      ∧ (syncOnline f).recordEva E ops = .ok (l, n)
      ∧ (syncOnline (probed 0 u 0 f)).eva.run E ops l = .ok ([[((a ^^ c) && (b ^^ c)) ^^ c ^^ (a' ^^ b')]], e', [], s ++ [.bits [((a ^^ c) && (b ^^ c)) ^^ c ^^ (a' ^^ b')], .dig dig])
      ∧ ∀ x, dig = E.hash (candidate n.gen E (setDelta d) [((a ^^ c) && (b ^^ c)) ^^ c ^^ (a' ^^ b')]
          [false, false, false, false, false, false, false, true, true, false, true] (lsb (n₁.gen.get E 5)) u [10] x) ↔ x = (a ^^ c) := by
  intro ops
  obtain ⟨f, os₁, n₁, os, n, l, e', s, bs, dig, h1, h2, h3, h4, h5, h6, h7, hb, h8, h9⟩ := C81_bit E d u hu [Op.inB a, .inB b, .inB c, .inB a', .inB b', .xor 0 2, .xor 1 2]
    [.xor 2 7, .xor 3 4, .xor 8 9] 5 6 [10] (by simp [IsLinear]) ops (by repeat' constructor)
  have hb' : bs = [((a ^^ c) && (b ^^ c)) ^^ c ^^ (a' ^^ b')] := by
    rw [hb]
    exact adder_value a b c a' b'
  have hos : theirs os = [bs] := by
    have ho : Circuit.opened [] ([Op.inB a, .inB b, .inB c, .inB a', .inB b', .xor 0 2, .xor 1 2] ++ [Op.and 5 6] ++ [.xor 2 7, .xor 3 4, .xor 8 9] ++ [Op.reveal .pub [10]])
      = [(.pub, bs)] := by rw [hb]; rfl
    rw [ho] at h6
    cases h6 with
    | cons hx hy =>
      cases hy
      obtain ⟨x1, -, x3⟩ := hx
      simp only [theirs, List.map_cons, List.map_nil]
      rw [x3 (by rw [x1]; simp)]
  have hc : carries [Op.inB a, .inB b, .inB c, .inB a', .inB b', .xor 0 2, .xor 1 2] [.xor 2 7, .xor 3 4, .xor 8 9]
    = [false, false, false, false, false, false, false, true, true, false, true] := rfl
  rw [hc] at h8 h9
  rw [hos] at h7
  subst hb'
  have ho1 : os₁ = [] := by
    simp only [OnNet.run, OnNet.step, bind, Except.bind, Option.toList_none, List.append_nil, Except.ok.injEq, Prod.mk.injEq] at h3
    exact h3.1.symm
  subst ho1
  refine ⟨f, n₁, n, l, e', s, dig, h2, h3, h5, h7, fun x => ?_⟩
  rw [h8 (fun he => h9 hu0 ⟨10, by simp, rfl⟩ (hinj he)) x]
  rfl

/-- The hypotheses of `C81_adder` are met by the block 2 and an injective digest. -/
example : ∃ E : Env, Function.Injective E.hash :=
  ⟨{ exEnv with hash := fun l => Encodable.encode (l.map BitVec.toNat) }, fun a b h =>
    List.map_injective_iff.2 (fun _ _ h => BitVec.eq_of_toNat_eq h) (Encodable.encode_injective h)⟩

example : lsb (2 : Block) = false ∧ (2 : Block) ≠ 0 := by decide

/-- The condition of `C81_unnoticed` holds for the adder, also when the sum is opened, wires go on to other gates and the sum is opened again. -/
example (a b c a' b' : Bool) :
    Quiet ([Op.inB a, .inB b, .inB c, .inB a', .inB b', .xor 0 2, .xor 1 2].foldl mark (List.replicate 0 false) ++ [true])
      [.xor 2 7, .xor 3 4, .xor 8 9, .reveal .pub [10], .and 5 9, .xor 10 11, .reveal .pub [10, 11, 12]] := by
  simp [Quiet, mark, Circuit.get]

/-- It does not hold if the sum goes on to a gate. -/
example (a b c a' b' : Bool) :
    ¬Quiet ([Op.inB a, .inB b, .inB c, .inB a', .inB b', .xor 0 2, .xor 1 2].foldl mark (List.replicate 0 false) ++ [true])
      [.xor 2 7, .xor 3 4, .xor 8 9, .and 5 10] := by
  simp [Quiet, mark, Circuit.get]

end Verif.Props.GarblerProbe
