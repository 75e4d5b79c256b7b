import Verif.Model.GCParty
import Verif.Spec.Linear
import Verif.Props.GarblerProbe
import Verif.Props.Direct

/-! C89: the ordinary backend.  The digest the evaluator sends at a public opening tells a garbler that changed one table a bit of its choice; nothing that is opened
changes.  Constants are told by their blocks there, so the changed label must not coincide with one. -/

namespace Verif.Props.ProbeDirect
open Verif.Model Verif.Model.GC Verif.Lemmas Verif.Props
open Verif.Spec.Circuit (Party Op mark Quiet IsLinear)
open Verif.Spec
open Verif.Props.GarblerCheat (evalGate_rows)
open Verif.Props.GarblerProbe (lsb_apart Like like_refl answer lsb_both)
open Verif.Props.EvaluatorView (blindA theirs)

/-! ### The evaluator -/

/-- No coincidence for one operation: if one of two secret wires carries the block `D`, their sum is no constant, with and without the block. -/
def Apt (D : Block) (m : List Bool) (e : Eva) : Op → Prop
  | .xor i j => Circuit.get m i ≠ Circuit.get m j → isPublic (e.get i) = false → isPublic (e.get j) = false →
      isPublic (e.get i ^^^ e.get j) = false ∧ isPublic (e.get i ^^^ e.get j ^^^ D) = false
  | _ => True

/-- No coincidence in a run. -/
def AptRun (E : Env) (cot : Nat → Block) (r : Nat → Bool) (D : Block) : List Bool → Eva → List Op → List Msg → Prop
  | _, _, [], _ => True
  | m, e, op :: ops, q => Apt D m e op ∧ ∀ o e1 q1 s, e.step E cot r op q = .ok (o, e1, q1, s) → AptRun E cot r D (mark m op) e1 ops q1

/-- The state `e'` is the state `e` with `D` added to the labels of the marked wires, none of which is a constant. -/
structure Apart (m : List Bool) (D : Block) (e e' : Eva) : Prop where
  gid : e'.gid = e.gid
  prg : e'.prgPos = e.prgPos
  cot : e'.cotPos = e.cotPos
  len : e.wires.length = m.length
  len' : e'.wires.length = m.length
  get : ∀ i, e'.get i = e.get i ^^^ sel (Circuit.get m i) D
  sec : ∀ i, Circuit.get m i = true → isPublic (e.get i) = false ∧ isPublic (e.get i ^^^ D) = false

theorem get_push (e : Eva) (x : Block) (i : Nat) : (e.push x).get i = if i = e.wires.length then x else e.get i := by
  unfold Eva.get Eva.push
  exact getD_push _ _ _ _

theorem mget_push (m : List Bool) (b : Bool) (i : Nat) : Circuit.get (m ++ [b]) i = if i = m.length then b else Circuit.get m i := by
  unfold Circuit.get
  exact getD_push _ _ _ _

theorem Apart.push {m : List Bool} {D : Block} {e e' f f' : Eva} (h : Apart m D e e') (hf : f.wires = e.wires) (hf' : f'.wires = e'.wires) (hg : f'.gid = f.gid)
    (hp : f'.prgPos = f.prgPos) (hc : f'.cotPos = f.cotPos) (x x' : Block) (b : Bool) (hx : x' = x ^^^ sel b D)
    (hs : b = true → isPublic x = false ∧ isPublic (x ^^^ D) = false) : Apart (m ++ [b]) D (f.push x) (f'.push x') where
  gid := hg
  prg := hp
  cot := hc
  len := by simp [Eva.push, hf, h.len]
  len' := by simp [Eva.push, hf', h.len']
  get := by
    intro i
    have g := h.get i
    have e1 : f.get i = e.get i := by unfold Eva.get; rw [hf]
    have e2 : f'.get i = e'.get i := by unfold Eva.get; rw [hf']
    rw [get_push, get_push, mget_push, hf, hf', h.len, h.len', e1, e2]
    split
    · exact hx
    · exact g
  sec := by
    intro i
    have e1 : f.get i = e.get i := by unfold Eva.get; rw [hf]
    rw [get_push, mget_push, hf, h.len, e1]
    split
    · exact hs
    · exact h.sec i

theorem pub_of {m : List Bool} {D : Block} {e e' : Eva} (h : Apart m D e e') (i : Nat) : isPublic (e'.get i) = isPublic (e.get i) ∧ isOne (e'.get i) = isOne (e.get i)
    ∧ isZero (e'.get i) = isZero (e.get i) := by
  rw [h.get i]
  cases hm : Circuit.get m i with
  | false => simp [sel]
  | true =>
    obtain ⟨a, b⟩ := h.sec i hm
    have a' := isPublic_false a
    have b' := isPublic_false b
    simp only [sel, if_true]
    rw [a, b, a'.1, a'.2, b'.1, b'.2]
    exact ⟨rfl, rfl, rfl⟩

theorem not_apart {m : List Bool} {D : Block} {e e' : Eva} (h : Apart m D e e') (i : Nat) : evaNot (e'.get i) = evaNot (e.get i) ^^^ sel (Circuit.get m i) D
    ∧ (Circuit.get m i = true → isPublic (evaNot (e.get i)) = false ∧ isPublic (evaNot (e.get i) ^^^ D) = false) := by
  cases hm : Circuit.get m i with
  | false =>
    have : e'.get i = e.get i := by rw [h.get i, hm]; simp [sel]
    rw [this]
    exact ⟨by simp [sel], nofun⟩
  | true =>
    obtain ⟨a, b⟩ := h.sec i hm
    have a' := isPublic_false a
    have b' := isPublic_false b
    have e1 : e'.get i = e.get i ^^^ D := by rw [h.get i, hm]; rfl
    have n1 : evaNot (e.get i) = e.get i := by unfold evaNot; rw [a'.1, a'.2]; rfl
    have n2 : evaNot (e.get i ^^^ D) = e.get i ^^^ D := by unfold evaNot; rw [b'.1, b'.2]; rfl
    rw [e1, n1, n2]
    exact ⟨rfl, fun _ => ⟨a, b⟩⟩

theorem evaXor_secret (E : Env) {a b : Block} (ha : isPublic a = false) (hb : isPublic b = false) :
    evaXor E a b = if isZero (a ^^^ b) then E.fixPoint else a ^^^ b := by
  have a' := isPublic_false ha
  have b' := isPublic_false hb
  unfold evaXor
  rw [a'.1, a'.2, b'.1, b'.2]
  rfl

theorem both_xor (a b d : Block) : a ^^^ d ^^^ (b ^^^ d) = a ^^^ b := by
  have : a ^^^ d ^^^ (b ^^^ d) = a ^^^ b ^^^ (d ^^^ d) := by ac_rfl
  rw [this, BitVec.xor_self, BitVec.xor_zero]

theorem xor_apart (E : Env) {m : List Bool} {D : Block} {e e' : Eva} (h : Apart m D e e') (i j : Nat) (ha : Apt D m e (.xor i j)) :
    evaXor E (e'.get i) (e'.get j) = evaXor E (e.get i) (e.get j) ^^^ sel (Circuit.get m i ^^ Circuit.get m j) D
    ∧ ((Circuit.get m i ^^ Circuit.get m j) = true → isPublic (evaXor E (e.get i) (e.get j)) = false ∧ isPublic (evaXor E (e.get i) (e.get j) ^^^ D) = false) := by
  obtain ⟨pi, oi, zi⟩ := pub_of h i
  obtain ⟨pj, oj, zj⟩ := pub_of h j
  have ni := not_apart h i
  have nj := not_apart h j
  have gi := h.get i
  have gj := h.get j
  -- a constant carries no mark
  have mi : isPublic (e.get i) = true → Circuit.get m i = false := by
    intro hp; cases hm : Circuit.get m i with
    | false => rfl
    | true => rw [(h.sec i hm).1] at hp; cases hp
  have mj : isPublic (e.get j) = true → Circuit.get m j = false := by
    intro hp; cases hm : Circuit.get m j with
    | false => rfl
    | true => rw [(h.sec j hm).1] at hp; cases hp
  by_cases o1 : isOne (e.get i) = true
  · have := mi (by unfold isPublic; rw [o1]; simp)
    rw [this, Bool.false_xor]
    have x1 : evaXor E (e.get i) (e.get j) = evaNot (e.get j) := by unfold evaXor; rw [o1]; rfl
    have x2 : evaXor E (e'.get i) (e'.get j) = evaNot (e'.get j) := by unfold evaXor; rw [oi, o1]; rfl
    rw [x1, x2]; exact nj
  · by_cases o2 : isOne (e.get j) = true
    · have := mj (by unfold isPublic; rw [o2]; simp)
      rw [this, Bool.xor_false]
      have x1 : evaXor E (e.get i) (e.get j) = evaNot (e.get i) := by unfold evaXor; rw [o2, if_neg o1]; rfl
      have x2 : evaXor E (e'.get i) (e'.get j) = evaNot (e'.get i) := by unfold evaXor; rw [oi, oj, o2, if_neg o1]; rfl
      rw [x1, x2]; exact ni
    · by_cases z1 : isZero (e.get i) = true
      · have := mi (by unfold isPublic; rw [z1]; simp)
        rw [this, Bool.false_xor]
        have x1 : evaXor E (e.get i) (e.get j) = e.get j := by unfold evaXor; rw [if_neg o1, if_neg o2, z1]; rfl
        have x2 : evaXor E (e'.get i) (e'.get j) = e'.get j := by unfold evaXor; rw [oi, oj, zi, if_neg o1, if_neg o2, z1]; rfl
        rw [x1, x2]; exact ⟨gj, h.sec j⟩
      · by_cases z2 : isZero (e.get j) = true
        · have := mj (by unfold isPublic; rw [z2]; simp)
          rw [this, Bool.xor_false]
          have x1 : evaXor E (e.get i) (e.get j) = e.get i := by unfold evaXor; rw [if_neg o1, if_neg o2, if_neg z1, z2]; rfl
          have x2 : evaXor E (e'.get i) (e'.get j) = e'.get i := by unfold evaXor; rw [oi, oj, zi, zj, if_neg o1, if_neg o2, if_neg z1, z2]; rfl
          rw [x1, x2]; exact ⟨gi, h.sec i⟩
        · have si : isPublic (e.get i) = false := by unfold isPublic; simp [z1, o1]
          have sj : isPublic (e.get j) = false := by unfold isPublic; simp [z2, o2]
          rw [evaXor_secret E si sj, evaXor_secret E (pi.trans si) (pj.trans sj), gi, gj]
          by_cases hm : Circuit.get m i = Circuit.get m j
          · have hx : (Circuit.get m i ^^ Circuit.get m j) = false := by rw [hm]; simp
            rw [hx, hm, both_xor]
            exact ⟨by simp [sel], nofun⟩
          · obtain ⟨c1, c2⟩ := ha hm si sj
            have hx : (Circuit.get m i ^^ Circuit.get m j) = true := by
              cases h1 : Circuit.get m i <;> cases h2 : Circuit.get m j <;> simp_all
            have hs : e.get i ^^^ sel (Circuit.get m i) D ^^^ (e.get j ^^^ sel (Circuit.get m j) D) = e.get i ^^^ e.get j ^^^ D := by
              have : e.get i ^^^ sel (Circuit.get m i) D ^^^ (e.get j ^^^ sel (Circuit.get m j) D)
                = e.get i ^^^ e.get j ^^^ (sel (Circuit.get m i) D ^^^ sel (Circuit.get m j) D) := by ac_rfl
              rw [this, sel_xor]
              have hb : (Circuit.get m i != Circuit.get m j) = true := hx
              rw [hb]; rfl
            rw [hs, hx, (isPublic_false c1).1, (isPublic_false c2).1]
            exact ⟨rfl, fun _ => ⟨c1, c2⟩⟩

theorem loop_apart {D : Block} (hD : lsb D = false) (p : Party) (f : Nat → Block) (b : Nat → Bool)
    (hb : ∀ i, b i = true → isPublic (f i) = false ∧ isPublic (f i ^^^ D) = false) : ∀ (ws : List Nat) (q : List Msg),
    evaRevealLoop p (ws.map fun i => f i ^^^ sel (b i) D) q = evaRevealLoop p (ws.map f) q := by
  intro ws
  induction ws with
  | nil => intro q; rfl
  | cons w ws ih =>
    intro q
    have hp : isOne (f w ^^^ sel (b w) D) = isOne (f w) ∧ isZero (f w ^^^ sel (b w) D) = isZero (f w) := by
      cases hw : b w with
      | false => simp [sel]
      | true =>
        have a' := isPublic_false (hb w hw).1
        have b' := isPublic_false (hb w hw).2
        simp only [sel, if_true]
        rw [a'.1, a'.2, b'.1, b'.2]
        exact ⟨rfl, rfl⟩
    simp only [List.map_cons, evaRevealLoop, lsb_apart hD, ih, hp.1, hp.2]

theorem pub_silent : ∀ (ls : List Block) (q : List Msg) {bs q' s}, evaRevealLoop .pub ls q = .ok (bs, q', s) → s = [] := by
  intro ls
  induction ls with
  | nil => intro q bs q' s h; cases h; rfl
  | cons l ls ih =>
    intro q bs q' s h
    simp only [evaRevealLoop, bind, Except.bind] at h
    split at h
    · split at h
      · cases h
      · rename_i y hy; cases h; exact ih _ hy
    · split at h
      · split at h
        · cases h
        · rename_i y hy; cases h; exact ih _ hy
      · split at h
        · rename_i hp; cases hp
        · split at h
          · cases h
          · split at h
            · cases h
            · rename_i y hy; cases h; exact ih _ hy

theorem step_apart (E : Env) (cot : Nat → Block) (r : Nat → Bool) {m : List Bool} {D : Block} (hD : lsb D = false) {e e' : Eva} (h : Apart m D e e') (op : Op)
    (hq : ∀ i j, op = .and i j → Circuit.get m i = false ∧ Circuit.get m j = false) (ha : Apt D m e op) (q : List Msg) {o e1 q1 s}
    (hr : e.step E cot r op q = .ok (o, e1, q1, s)) :
    ∃ e1' s', e'.step E cot r op q = .ok (o, e1', q1, s') ∧ Apart (mark m op) D e1 e1' ∧ List.Forall₂ (Like E D) s s'
      ∧ ∀ ws, op = .reveal .pub ws → ∃ bs, o = some bs ∧ s = answer E .pub bs (ws.map e.get)
        ∧ s' = answer E .pub bs (ws.map fun i => e.get i ^^^ sel (Circuit.get m i) D) := by
  have z : ∀ x : Block, x = x ^^^ sel false D := by intro x; simp [sel]
  cases op with
  | pub b =>
    cases hr
    exact ⟨_, _, rfl, h.push rfl rfl h.gid h.prg h.cot _ _ false (z _) nofun, .nil, by simp⟩
  | inA b =>
    cases hr
    refine ⟨_, _, rfl, h.push (f := { e with prgPos := e.prgPos + 1 }) (f' := { e' with prgPos := e'.prgPos + 1 }) rfl rfl h.gid (congrArg (· + 1) h.prg) h.cot _ _ false ?_ nofun, .nil, by simp⟩
    rw [h.prg]; exact z _
  | inB b =>
    cases hr
    refine ⟨_, _, rfl, h.push (f := { e with cotPos := e.cotPos + 1 }) (f' := { e' with cotPos := e'.cotPos + 1 }) rfl rfl h.gid h.prg (congrArg (· + 1) h.cot) _ _ false ?_ nofun, ?_, by simp⟩
    · rw [h.cot]; exact z _
    · rw [h.cot]; exact like_refl E D _
  | xor i j =>
    cases hr
    obtain ⟨x1, x2⟩ := xor_apart E h i j ha
    exact ⟨_, _, rfl, h.push rfl rfl h.gid h.prg h.cot _ _ (Circuit.get m i ^^ Circuit.get m j) x1 x2, .nil, by simp⟩
  | not i =>
    cases hr
    obtain ⟨x1, x2⟩ := not_apart h i
    exact ⟨_, _, rfl, h.push rfl rfl h.gid h.prg h.cot _ _ (Circuit.get m i) x1 x2, .nil, by simp⟩
  | and i j =>
    obtain ⟨mi, mj⟩ := hq i j rfl
    have gi : e'.get i = e.get i := by rw [h.get i, mi]; exact (z _).symm
    have gj : e'.get j = e.get j := by rw [h.get j, mj]; exact (z _).symm
    simp only [Eva.step, evaAnd, bind, Except.bind] at hr ⊢
    rw [gi, gj]
    by_cases hp : (isZero (e.get i) || isOne (e.get i) || isZero (e.get j) || isOne (e.get j)) = true
    · rw [if_pos hp] at hr ⊢
      cases hr
      exact ⟨_, _, rfl, h.push rfl rfl h.gid h.prg h.cot _ _ false (z _) nofun, .nil, by simp⟩
    · rw [if_neg hp] at hr ⊢
      cases ht : recvTable q with
      | error x => rw [ht] at hr; cases hr
      | ok x =>
        rw [ht] at hr
        cases hr
        refine ⟨_, _, rfl, h.push (f := { e with gid := e.gid + 1 }) (f' := { e' with gid := e'.gid + 1 }) rfl rfl (congrArg (· + 1) h.gid) h.prg h.cot _ _ false ?_ nofun, .nil, by simp⟩
        rw [h.gid]; exact z _
  | reveal p ws =>
    have hw : ws.map e'.get = ws.map fun i => e.get i ^^^ sel (Circuit.get m i) D := List.map_congr_left fun i _ => h.get i
    simp only [Eva.step, bind, Except.bind] at hr ⊢
    rw [hw, loop_apart hD p e.get (Circuit.get m) h.sec]
    cases hx : evaRevealLoop p (ws.map e.get) q with
    | error x => rw [hx] at hr; cases hr
    | ok x =>
      rw [hx] at hr
      cases hr
      obtain ⟨eb, q2, s2⟩ := x
      refine ⟨_, _, rfl, h, ?_, ?_⟩
      · refine List.rel_append (like_refl E D s2) ?_
        split
        · refine .cons (.same _) (.cons ?_ .nil)
          have := Like.dig (E := E) (D := D) (ws.map fun i => (e.get i, Circuit.get m i))
          simpa [List.map_map, Function.comp_def] using this
        · exact .nil
      · intro ws' hp
        cases hp
        have := pub_silent _ _ hx
        subst this
        exact ⟨eb, rfl, rfl, rfl⟩

theorem run_apart (E : Env) (cot : Nat → Block) (r : Nat → Bool) {D : Block} (hD : lsb D = false) : ∀ (ops : List Op) (m : List Bool) (e e' : Eva), Apart m D e e' →
    Quiet m ops → ∀ (q : List Msg), AptRun E cot r D m e ops q → ∀ {os e1 q1 s}, e.run E cot r ops q = .ok (os, e1, q1, s) →
    ∃ e1' s', e'.run E cot r ops q = .ok (os, e1', q1, s') ∧ Apart (ops.foldl mark m) D e1 e1' ∧ List.Forall₂ (Like E D) s s' := by
  intro ops
  induction ops with
  | nil => intro m e e' h _ q _ os e1 q1 s hr; cases hr; exact ⟨e', [], rfl, h, .nil⟩
  | cons op ops ih =>
    intro m e e' h hq q ha os e1 q1 s hr
    simp only [Eva.run, bind, Except.bind] at hr
    cases hs : e.step E cot r op q with
    | error x => rw [hs] at hr; cases hr
    | ok x =>
      obtain ⟨o, e2, q2, s2⟩ := x
      rw [hs] at hr
      simp only at hr
      cases hb : e2.run E cot r ops q2 with
      | error x => rw [hb] at hr; cases hr
      | ok x =>
        obtain ⟨os', e3, q3, s3⟩ := x
        rw [hb] at hr
        cases hr
        obtain ⟨e2', s2', a1, a2, a3, -⟩ := step_apart E cot r hD h op hq.1 ha.1 q hs
        obtain ⟨e3', s3', b1, b2, b3⟩ := ih _ e2 e2' a2 hq.2 q2 (ha.2 _ _ _ _ hs) hb
        exact ⟨e3', s2' ++ s3', by simp only [Eva.run, a1, b1, bind, Except.bind], b2, List.rel_append a3 b3⟩

/-- The block the evaluator adds to the output of a gate with changed rows. -/
def shift (e : Eva) (u v : Block) (i j : Nat) : Block := sel (lsb (e.get i)) u ^^^ sel (lsb (e.get j)) v

/-- The evaluator after a gate on secret wires. -/
def afterGate (E : Env) (e : Eva) (i j : Nat) (t : Block × Block) : Eva := Eva.push { e with gid := e.gid + 1 } (evalGate E (e.get i) (e.get j) t e.gid)

/-- The marks after that gate: its output only. -/
def gateMark (e : Eva) : List Bool := List.replicate e.wires.length false ++ [true]

theorem step_gate (E : Env) (cot : Nat → Block) (r : Nat → Bool) (e : Eva) (i j : Nat) (hi : isPublic (e.get i) = false) (hj : isPublic (e.get j) = false) (t0 t1 : Block) (q : List Msg) :
    e.step E cot r (.and i j) (.blk t0 :: .blk t1 :: q) = .ok (none, afterGate E e i j (t0, t1), q, []) := by
  have a := isPublic_false hi
  have b := isPublic_false hj
  simp only [Eva.step, evaAnd, a.1, a.2, b.1, b.2, recvTable, bind, Except.bind]
  rfl

theorem gate_apart (E : Env) (u v : Block) (e : Eva) (i j : Nat) (t0 t1 : Block)
    (hW : isPublic (evalGate E (e.get i) (e.get j) (t0, t1) e.gid) = false) (hW' : isPublic (evalGate E (e.get i) (e.get j) (t0, t1) e.gid ^^^ shift e u v i j) = false) :
    Apart (gateMark e) (shift e u v i j) (afterGate E e i j (t0, t1)) (afterGate E e i j (t0 ^^^ u, t1 ^^^ v)) := by
  have mf : ∀ i, Circuit.get (List.replicate e.wires.length false) i = false := by
    intro i; unfold Circuit.get; rw [List.getD_eq_getElem?_getD, List.getElem?_replicate]; split <;> rfl
  have base : Apart (List.replicate e.wires.length false) (shift e u v i j) e e :=
    ⟨rfl, rfl, rfl, by simp, by simp, fun i => by rw [mf]; simp [sel], fun i hm => by rw [mf] at hm; cases hm⟩
  refine base.push (f := { e with gid := e.gid + 1 }) (f' := { e with gid := e.gid + 1 }) rfl rfl rfl rfl rfl _ _ true ?_ (fun _ => ⟨hW, hW'⟩)
  rw [evalGate_rows, BitVec.xor_assoc]
  rfl

/-- **C89, nothing is noticed.**  The evaluator of the ordinary backend reaches a gate on two secret wires, whose output gets to no other gate (XOR and NOT do not count).  If the rows of
its table arrive with blocks of lowest bit 0 added, and the labels it now computes are no constants, its code runs as with the right table: it opens the same values, reads the same messages and sends
the same messages but for the digests of labels at public openings, where one block is added to some of the labels. -/
theorem C89_unnoticed (E : Env) (cot : Nat → Block) (r : Nat → Bool) (u v : Block) (hu : lsb u = false) (hv : lsb v = false) (e : Eva) (i j : Nat)
    (hi : isPublic (e.get i) = false) (hj : isPublic (e.get j) = false) (t0 t1 : Block) (post : List Op) (q : List Msg)
    (hW : isPublic (evalGate E (e.get i) (e.get j) (t0, t1) e.gid) = false) (hW' : isPublic (evalGate E (e.get i) (e.get j) (t0, t1) e.gid ^^^ shift e u v i j) = false)
    (hq : Quiet (gateMark e) post) (ha : AptRun E cot r (shift e u v i j) (gateMark e) (afterGate E e i j (t0, t1)) post q) {os e1 q1 s}
    (hr : e.run E cot r (.and i j :: post) (.blk t0 :: .blk t1 :: q) = .ok (os, e1, q1, s)) :
    lsb (shift e u v i j) = false ∧ ∃ e1' s', e.run E cot r (.and i j :: post) (.blk (t0 ^^^ u) :: .blk (t1 ^^^ v) :: q) = .ok (os, e1', q1, s')
      ∧ List.Forall₂ (Like E (shift e u v i j)) s s' ∧ Apart (post.foldl mark (gateMark e)) (shift e u v i j) e1 e1' := by
  have hD : lsb (shift e u v i j) = false := lsb_both hu hv _ _
  refine ⟨hD, ?_⟩
  have hg := gate_apart E u v e i j t0 t1 hW hW'
  simp only [Eva.run, step_gate E cot r e i j hi hj, bind, Except.bind] at hr ⊢
  cases hb : (afterGate E e i j (t0, t1)).run E cot r post q with
  | error x => rw [hb] at hr; cases hr
  | ok x =>
    obtain ⟨os', e3, q3, s3⟩ := x
    rw [hb] at hr
    cases hr
    obtain ⟨e1', s', a1, a2, a3⟩ := run_apart E cot r hD post _ _ _ hg hq q ha hb
    rw [a1]
    exact ⟨e1', s', by simp, by simpa using a3, a2⟩

/-! ### Both parties -/

theorem run_frame (E : Env) (cot : Nat → Block) (r : Nat → Bool) : ∀ (ops : List Op) (e : Eva) (q : List Msg) {os e1 q1 s}, e.run E cot r ops q = .ok (os, e1, q1, s) →
    ∀ t, e.run E cot r ops (q ++ t) = .ok (os, e1, q1 ++ t, s) := by
  intro ops
  induction ops with
  | nil => intro e q os e1 q1 s h t; cases h; rfl
  | cons op ops ih =>
    intro e q os e1 q1 s h t
    simp only [Eva.run, bind, Except.bind] at h ⊢
    cases hs : e.step E cot r op q with
    | error x => rw [hs] at h; cases h
    | ok x =>
      obtain ⟨o, e2, q2, s2⟩ := x
      rw [hs] at h
      rw [EvaluatorView.step_frame E cot r e op hs]
      simp only at h ⊢
      cases hb : e2.run E cot r ops q2 with
      | error x => rw [hb] at h; cases h
      | ok x => rw [hb] at h; rw [ih e2 q2 hb]; cases h; rfl

theorem run_append (E : Env) (cot : Nat → Block) (r : Nat → Bool) (b : List Op) : ∀ (a : List Op) (e : Eva) (q : List Msg), e.run E cot r (a ++ b) q = (do
      let (os, e, q, s) ← e.run E cot r a q
      let (os', e, q, s') ← e.run E cot r b q
      .ok (os ++ os', e, q, s ++ s')) := by
  intro a
  induction a with
  | nil =>
    intro e q
    simp only [List.nil_append, Eva.run, bind, Except.bind]
    cases e.run E cot r b q <;> simp
  | cons op a ih =>
    intro e q
    simp only [List.cons_append, Eva.run, bind, Except.bind, ih]
    cases e.step E cot r op q with
    | error x => rfl
    | ok x =>
      simp only
      cases x.2.1.run E cot r a x.2.2.1 with
      | error y => rfl
      | ok y =>
        simp only
        cases y.2.1.run E cot r b y.2.2.1 with
        | error z => rfl
        | ok z => simp only [List.append_assoc]

theorem step_lin (E : Env) (cot : Nat → Block) (r : Nat → Bool) (e : Eva) (op : Op) (h : IsLinear op) :
    ∃ e1, ∀ q, e.step E cot r op q = .ok (none, e1, q, []) := by
  cases op <;> first | exact ⟨_, fun _ => rfl⟩ | exact absurd h (by simp [IsLinear])

theorem apt_lin (E : Env) (cot : Nat → Block) (r : Nat → Bool) (D : Block) : ∀ (lin : List Op), (∀ op ∈ lin, IsLinear op) → ∀ (m : List Bool) (e : Eva) (q q' : List Msg),
    AptRun E cot r D m e lin q → AptRun E cot r D m e lin q' := by
  intro lin
  induction lin with
  | nil => intro _ m e q q' _; trivial
  | cons op lin ih =>
    intro h m e q q' ha
    obtain ⟨e1, he⟩ := step_lin E cot r e op (h op (by simp))
    refine ⟨ha.1, fun o e2 q1 s hs => ?_⟩
    rw [he] at hs
    cases hs
    exact ih (fun o ho => h o (List.mem_cons_of_mem _ ho)) _ _ _ _ (ha.2 _ _ _ _ (he q))

theorem opened_lin (lin : List Op) (h : ∀ op ∈ lin, IsLinear op) : ∀ w, Circuit.opened w lin = [] := by
  induction lin with
  | nil => intro w; rfl
  | cons op lin ih =>
    intro w
    rw [opened_cons, ih (fun o ho => h o (List.mem_cons_of_mem _ ho))]
    have := h op (by simp)
    cases op <;> first | rfl | exact absurd this (by simp [IsLinear])

theorem step_delta (E : Env) (n : Net) (op : Op) {o : Option (Party × List Bool × List Bool)} {n' : Net} (h : n.step E op = .ok (o, n')) : n'.gen.delta = n.gen.delta := by
  cases op with
  | pub b => cases h; rfl
  | inA b => cases h; rfl
  | xor i j => cases h; rfl
  | not i => cases h; rfl
  | inB b =>
    simp only [Net.step, bind, Except.bind] at h
    split at h
    · cases h
    · cases h; rfl
  | and i j =>
    simp only [Net.step, bind, Except.bind] at h
    split at h
    · cases h
    · cases h
      simp only [Gen.push, genAnd]
      split
      · rfl
      · split
        · rfl
        · split <;> rfl
  | reveal p ws =>
    simp only [Net.step, bind, Except.bind] at h
    split at h
    · cases h
    · split at h
      · cases h
      · split at h
        · cases h
        · cases h; rfl

/-- What the garbler compares the digest with if it thinks that the operands have the colours `ca`, `cb` for the evaluator: its own labels, the opened values and the blocks it added. -/
def labelsAs (g : Gen) (bs m : List Bool) (u v : Block) (ws : List Nat) (ca cb : Bool) : List Block :=
  List.zipWith (fun x l => l ^^^ sel (Circuit.get m x) (sel ca u ^^^ sel cb v)) ws (genOpenBlocks g.delta (ws.map g.get) bs)

/-- Which wires contain the output of the gate an odd number of times, if there were `k` wires before it. -/
def carried (k : Nat) (lin : List Op) : List Bool := lin.foldl mark (List.replicate k false ++ [true])

/-- The rows of the table of a gate, `backend/opt_hg_gen.h:44-48`. -/
def rows (E : Env) (g : Gen) (i j : Nat) : Block × Block := (garble E (g.get i) (g.get i ^^^ g.delta) (g.get j) (g.get j ^^^ g.delta) g.delta g.gid).2

theorem zipWith_map {α β γ : Type} (f : α → β → γ) (g : α → β) : ∀ l : List α, List.zipWith f l (l.map g) = l.map fun x => f x (g x)
  | [] => rfl
  | x :: l => by simp [zipWith_map f g l]

/-- **C89, what the garbler gets.**  After any program run by both parties comes a gate on two secret wires, then XORs and NOTs and a public opening.  The garbler follows the code but for the blocks
`u`, `v` (lowest bit 0) added to the rows of that gate.  The evaluator, started from nothing, opens the values of the plain program everywhere, and the last thing it sends are the opened values and the digest
of labels known to the garbler, with a block added on the wires that contain the output of the gate.  The added block tells which of `u`, `v` the operands select. -/
theorem C89_digest (E : Env) (d u v : Block) (hu : lsb u = false) (hv : lsb v = false) (pre lin : List Op) (i j : Nat) (ws : List Nat) (hlin : ∀ op ∈ lin, IsLinear op)
    (hc₀ : NoCoincidence E (Direct.start d) pre) {os₁ : List (Party × List Bool × List Bool)} {n : Net} (hpre : (Direct.start d).run E pre = .ok (os₁, n))
    (hc : NoCoincidence E n (.and i j :: (lin ++ [.reveal .pub ws]))) (hi : isPublic (n.gen.get i) = false) (hj : isPublic (n.gen.get j) = false)
    (hW : isPublic (evalGate E (n.eva.get i) (n.eva.get j) (rows E n.gen i j) n.eva.gid ^^^ shift n.eva u v i j) = false)
    (ha : AptRun E (cotM E n.gen.delta) E.cotR (shift n.eva u v i j) (gateMark n.eva) (afterGate E n.eva i j (rows E n.gen i j)) lin []) :
    ∃ l₁ l₂ os n' e' s bs,
      (Direct.start d).recordEva E pre = .ok (l₁, n)
      ∧ n.recordEva E (.and i j :: (lin ++ [.reveal .pub ws])) = .ok (.blk (rows E n.gen i j).1 :: .blk (rows E n.gen i j).2 :: l₂, n')
      ∧ List.Forall₂ RevealOk (os₁ ++ os) (Circuit.opened [] (pre ++ .and i j :: (lin ++ [.reveal .pub ws])))
      ∧ bs = ws.map (Circuit.get ((pre ++ .and i j :: lin).foldl Circuit.next []))
      ∧ ({} : Eva).run E (cotM E (setDelta d)) E.cotR ((pre ++ Op.and i j :: (lin ++ [Op.reveal .pub ws])).map blindA)
          (l₁ ++ .blk ((rows E n.gen i j).1 ^^^ u) :: .blk ((rows E n.gen i j).2 ^^^ v) :: l₂)
        = .ok (theirs (os₁ ++ os), e', [], s ++ [.bits bs, .dig (E.hash (labelsAs n'.gen bs (carried n.gen.wires.length lin) u v ws
          (Circuit.get (pre.foldl Circuit.next []) i ^^ lsb (n.gen.get i)) (Circuit.get (pre.foldl Circuit.next []) j ^^ lsb (n.gen.get j))))]) := by
  -- the part before the gate
  obtain ⟨os₁', n₁, a1, a2, a3⟩ := Direct.run_inv E pre _ [] (Direct.start_inv d) hc₀
  rw [hpre] at a1
  cases a1
  obtain ⟨l₁, s₁, b1, b2⟩ := EvaluatorView.C62_parties E pre _ _ _ hpre
  have b2' : ({} : Eva).run E (cotM E (setDelta d)) E.cotR (pre.map blindA) l₁ = .ok (theirs os₁, n.eva, [], s₁) := by
    have := b2; rw [a3.toEva] at this; exact this
  have hdelta : n.gen.delta = setDelta d := by
    have key : ∀ (ops : List Op) (n n' : Net) (os : List (Party × List Bool × List Bool)), n.run E ops = .ok (os, n') → n'.gen.delta = n.gen.delta := by
      intro ops
      induction ops with
      | nil => intro n n' os h; cases h; rfl
      | cons op ops ih =>
        intro n n' os h
        simp only [Net.run, bind, Except.bind] at h
        cases hs : n.step E op with
        | error x => rw [hs] at h; cases h
        | ok x =>
          obtain ⟨o, m⟩ := x
          rw [hs] at h
          simp only at h
          cases hr : m.run E ops with
          | error x => rw [hr] at h; cases h
          | ok x =>
            rw [hr] at h
            cases h
            rw [ih _ _ _ hr]
            exact step_delta E n op hs
    exact key pre _ _ _ hpre
  -- the rest of the honest run
  obtain ⟨os, n', c1, c2, c3⟩ := Direct.run_inv E _ n _ a3 hc
  obtain ⟨l, s, d1, d2⟩ := EvaluatorView.C62_parties E _ _ _ _ c1
  rw [a3.toEva, c3.toEva, List.nil_append] at d2
  have hbl : (Op.and i j :: (lin ++ [Op.reveal .pub ws])).map blindA = .and i j :: (lin ++ [.reveal .pub ws]) := by
    rw [List.map_cons, List.map_append, GarblerProbe.blind_lin lin hlin]; rfl
  rw [hbl] at d2
  have hsend : (n.gen.send E (.and i j)).2 = [.blk (rows E n.gen i j).1, .blk (rows E n.gen i j).2] := by
    have x := isPublic_false hi
    have y := isPublic_false hj
    simp only [Gen.send, genAnd, x.1, x.2, y.1, y.2, Bool.or_self, Bool.false_eq_true, if_false]
    rfl
  obtain ⟨l₂, hl⟩ : ∃ l₂, l = .blk (rows E n.gen i j).1 :: .blk (rows E n.gen i j).2 :: l₂ := by
    simp only [Net.recordEva, bind, Except.bind, hsend] at d1
    split at d1
    · cases d1
    · split at d1
      · cases d1
      · split at d1
        · cases d1
        · cases d1; exact ⟨_, rfl⟩
  subst hl
  -- the operands
  have hrel : ∀ x, isPublic (n.gen.get x) = false → isPublic (n.eva.get x) = false ∧ lsb (n.eva.get x) = (Circuit.get (pre.foldl Circuit.next []) x ^^ lsb (n.gen.get x)) := by
    intro x hx
    rcases a3.rel x with ⟨h1, -⟩ | ⟨-, h2, h3⟩
    · rw [h1, pub_isPublic] at hx; cases hx
    · refine ⟨h2, ?_⟩
      rw [h3, lsb_xor, lsb_sel _ _ a3.delta]
      cases lsb (n.gen.get x) <;> cases Circuit.get (pre.foldl Circuit.next []) x <;> rfl
  obtain ⟨ei, li⟩ := hrel i hi
  obtain ⟨ej, lj⟩ := hrel j hj
  have hW0 : isPublic (evalGate E (n.eva.get i) (n.eva.get j) ((rows E n.gen i j).1, (rows E n.gen i j).2) n.eva.gid) = false := by
    have := (hc.1 hi hj).2
    rw [← a3.gid] at this
    unfold rows
    rw [← a3.gid]
    exact this
  have hg := gate_apart E u v n.eva i j _ _ hW0 hW
  have hD : lsb (shift n.eva u v i j) = false := lsb_both hu hv _ _
  -- the evaluator after the gate
  simp only [Eva.run, step_gate E _ _ n.eva i j ei ej, bind, Except.bind] at d2
  cases hb : (afterGate E n.eva i j ((rows E n.gen i j).1, (rows E n.gen i j).2)).run E (cotM E n.gen.delta) E.cotR (lin ++ [.reveal .pub ws]) l₂ with
  | error x => rw [hb] at d2; cases d2
  | ok x =>
    obtain ⟨os2, e2, q2, s2⟩ := x
    rw [hb] at d2
    simp only [Except.ok.injEq, Prod.mk.injEq, Option.toList_none, List.nil_append] at d2
    obtain ⟨rfl, rfl, rfl, rfl⟩ := d2
    rw [run_append] at hb
    simp only [bind, Except.bind] at hb
    cases hlr : (afterGate E n.eva i j ((rows E n.gen i j).1, (rows E n.gen i j).2)).run E (cotM E n.gen.delta) E.cotR lin l₂ with
    | error x => rw [hlr] at hb; cases hb
    | ok x =>
      obtain ⟨os3, e3, q3, s3⟩ := x
      rw [hlr] at hb
      simp only [Eva.run, bind, Except.bind] at hb
      cases hrv : e3.step E (cotM E n.gen.delta) E.cotR (.reveal .pub ws) q3 with
      | error x => rw [hrv] at hb; cases hb
      | ok x =>
        obtain ⟨o4, e4, q4, s4⟩ := x
        rw [hrv] at hb
        simp only [Except.ok.injEq, Prod.mk.injEq, List.append_nil] at hb
        obtain ⟨hb1, rfl, rfl, rfl⟩ := hb
        obtain ⟨e3', s3', p3, q3', -⟩ := run_apart E _ _ hD lin _ _ _ hg (GarblerProbe.lin_gates lin hlin _) _ (apt_lin E _ _ _ lin hlin _ _ _ _ ha) hlr
        obtain ⟨e4', s4', p4, -, -, q4'⟩ := step_apart E _ _ hD q3' (.reveal .pub ws) (by simp) trivial _ hrv
        obtain ⟨bs, hbs, -, hs4⟩ := q4' ws rfl
        have he34 : n'.eva = e3 := by
          simp only [Eva.step, bind, Except.bind] at hrv
          split at hrv
          · cases hrv
          · simp only [Except.ok.injEq, Prod.mk.injEq] at hrv
            exact hrv.2.1.symm
        -- the opened values
        have hw' : (lin ++ [Op.reveal .pub ws]).foldl Circuit.next (Circuit.next (pre.foldl Circuit.next []) (.and i j)) = (pre ++ .and i j :: lin).foldl Circuit.next [] := by
          rw [List.foldl_append, List.foldl_append, List.foldl_cons]
          simp [Circuit.next, Circuit.newWire]
        have ho : Circuit.opened (pre.foldl Circuit.next []) (.and i j :: (lin ++ [.reveal .pub ws]))
            = [(.pub, ws.map (Circuit.get ((pre ++ .and i j :: lin).foldl Circuit.next [])))] := by
          rw [opened_cons, GarblerProbe.opened_append, opened_lin lin hlin, List.foldl_append, List.foldl_cons]
          rfl
        have hv4 : bs = ws.map (Circuit.get ((pre ++ .and i j :: lin).foldl Circuit.next [])) := by
          have c2' := c2
          rw [ho] at c2'
          cases c2' with
          | cons hx hy =>
            cases hy
            obtain ⟨x1, -, x3⟩ := hx
            rw [hbs] at hb1
            simp only [theirs, List.map_cons, List.map_nil, Option.toList_some] at hb1
            have h3 : os3 = [] := by
              have := congrArg List.length hb1
              simp at this
              exact this
            subst h3
            simp only [List.nil_append, List.cons.injEq, and_true] at hb1
            rw [hb1]
            exact x3 (by rw [x1]; simp)
        refine ⟨l₁, l₂, os, n', e4', s₁ ++ s3', bs, b1, d1, ?_, hv4, ?_⟩
        · rw [GarblerProbe.opened_append]
          exact List.rel_append a2 c2
        · have hlab : labelsAs n'.gen bs (carried n.gen.wires.length lin) u v ws (Circuit.get (pre.foldl Circuit.next []) i ^^ lsb (n.gen.get i))
              (Circuit.get (pre.foldl Circuit.next []) j ^^ lsb (n.gen.get j))
              = ws.map fun x => e3.get x ^^^ sel (Circuit.get (lin.foldl mark (gateMark n.eva)) x) (shift n.eva u v i j) := by
            have hgen : genOpenBlocks n'.gen.delta (ws.map n'.gen.get) bs = ws.map n'.eva.get := by
              refine genOpenBlocks_spec _ _ _ _ (by simp) (by simp [hv4]) ?_
              intro k h1 h2 h3
              have := c3.rel (ws[k]'(by simpa using h1))
              rw [List.foldl_cons, hw'] at this
              simpa [hv4] using this
            unfold labelsAs
            rw [hgen, zipWith_map, he34]
            refine List.map_congr_left fun x _ => ?_
            unfold carried gateMark shift
            rw [li, lj, a3.glen, a3.elen]
          have hth : theirs (os₁ ++ os) = theirs os₁ ++ theirs os := by simp [theirs]
          rw [List.map_append, hbl, run_append, run_frame E _ _ _ _ _ b2', hth, ← hb1, hlab]
          simp only [bind, Except.bind, List.nil_append, Eva.run]
          rw [← hdelta, step_gate E _ _ n.eva i j ei ej]
          simp only
          rw [run_append, p3]
          simp only [bind, Except.bind, Eva.run]
          rw [p4, hs4]
          simp [answer]

/-- **C89, the bit.**  With one block added to the first row: if the digests of the two candidates differ, the digest the evaluator sends is that of the candidate with the value of the first operand.
The candidates differ if the block is not zero and one of the opened wires carries the output of the gate. -/
theorem C89_bit (E : Env) (d u : Block) (hu : lsb u = false) (pre lin : List Op) (i j : Nat) (ws : List Nat) (hlin : ∀ op ∈ lin, IsLinear op)
    (hc₀ : NoCoincidence E (Direct.start d) pre) {os₁ : List (Party × List Bool × List Bool)} {n : Net} (hpre : (Direct.start d).run E pre = .ok (os₁, n))
    (hc : NoCoincidence E n (.and i j :: (lin ++ [.reveal .pub ws]))) (hi : isPublic (n.gen.get i) = false) (hj : isPublic (n.gen.get j) = false)
    (hW : isPublic (evalGate E (n.eva.get i) (n.eva.get j) (rows E n.gen i j) n.eva.gid ^^^ shift n.eva u 0 i j) = false)
    (ha : AptRun E (cotM E n.gen.delta) E.cotR (shift n.eva u 0 i j) (gateMark n.eva) (afterGate E n.eva i j (rows E n.gen i j)) lin []) :
    ∃ l₁ l₂ os n' e' s bs dig,
      (Direct.start d).recordEva E pre = .ok (l₁, n)
      ∧ n.recordEva E (.and i j :: (lin ++ [.reveal .pub ws])) = .ok (.blk (rows E n.gen i j).1 :: .blk (rows E n.gen i j).2 :: l₂, n')
      ∧ List.Forall₂ RevealOk (os₁ ++ os) (Circuit.opened [] (pre ++ .and i j :: (lin ++ [.reveal .pub ws])))
      ∧ ({} : Eva).run E (cotM E (setDelta d)) E.cotR ((pre ++ Op.and i j :: (lin ++ [Op.reveal .pub ws])).map blindA)
          (l₁ ++ .blk ((rows E n.gen i j).1 ^^^ u) :: .blk (rows E n.gen i j).2 :: l₂)
        = .ok (theirs (os₁ ++ os), e', [], s ++ [.bits bs, .dig dig])
      ∧ bs = ws.map (Circuit.get ((pre ++ .and i j :: lin).foldl Circuit.next []))
      ∧ (E.hash (labelsAs n'.gen bs (carried n.gen.wires.length lin) u 0 ws (true ^^ lsb (n.gen.get i)) false)
          ≠ E.hash (labelsAs n'.gen bs (carried n.gen.wires.length lin) u 0 ws (false ^^ lsb (n.gen.get i)) false) →
        ∀ c, dig = E.hash (labelsAs n'.gen bs (carried n.gen.wires.length lin) u 0 ws (c ^^ lsb (n.gen.get i)) false) ↔ c = Circuit.get (pre.foldl Circuit.next []) i)
      ∧ (u ≠ 0 → (∃ x ∈ ws, Circuit.get (carried n.gen.wires.length lin) x = true) →
        labelsAs n'.gen bs (carried n.gen.wires.length lin) u 0 ws (true ^^ lsb (n.gen.get i)) false
          ≠ labelsAs n'.gen bs (carried n.gen.wires.length lin) u 0 ws (false ^^ lsb (n.gen.get i)) false) := by
  obtain ⟨l₁, l₂, os, n', e', s, bs, h1, h2, h3, h4, h5⟩ := C89_digest E d u 0 hu (by rfl) pre lin i j ws hlin hc₀ hpre hc hi hj hW ha
  have hz : ∀ b, sel b (0 : Block) = 0#128 := by intro b; cases b <;> rfl
  have hv : ∀ ca cb, labelsAs n'.gen bs (carried n.gen.wires.length lin) u 0 ws ca cb = labelsAs n'.gen bs (carried n.gen.wires.length lin) u 0 ws ca false := by
    intro ca cb; unfold labelsAs; rw [hz, hz]
  have hx : ((rows E n.gen i j).2 ^^^ 0 : Block) = (rows E n.gen i j).2 := BitVec.xor_zero
  rw [hv, hx] at h5
  refine ⟨l₁, l₂, os, n', e', s, bs, _, h1, h2, h3, h5, h4, ?_, ?_⟩
  · intro hne c
    generalize Circuit.get (pre.foldl Circuit.next []) i = a
    cases a <;> cases c
    · exact ⟨fun _ => rfl, fun _ => rfl⟩
    · exact ⟨fun h => absurd h.symm hne, nofun⟩
    · exact ⟨fun h => absurd h hne, nofun⟩
    · exact ⟨fun _ => rfl, fun _ => rfl⟩
  · rintro hu0 ⟨x, hx, hm⟩ he
    unfold labelsAs at he
    obtain ⟨k, hk, rfl⟩ := List.getElem_of_mem hx
    have hlen : (genOpenBlocks n'.gen.delta (ws.map n'.gen.get) bs).length = ws.length := by
      unfold genOpenBlocks; rw [List.length_zipWith, h4]; simp
    have := congrArg (fun l => l[k]?) he
    simp only [List.getElem?_zipWith, List.getElem?_eq_getElem hk, List.getElem?_eq_getElem (hlen ▸ hk : k < (genOpenBlocks n'.gen.delta (ws.map n'.gen.get) bs).length), hm,
      Option.some.injEq] at this
    have h2 := (BitVec.xor_right_inj _).1 this
    rw [hz] at h2
    cases hb : lsb (n.gen.get i) <;> rw [hb] at h2 <;> simp [sel] at h2
    · exact hu0 h2
    · exact hu0 h2.symm

/-! ### The hypotheses are met -/

instance (D : Block) (m : List Bool) (e : Eva) (op : Op) : Decidable (Apt D m e op) := by
  cases op <;> unfold Apt <;> infer_instance

instance decAptRun (E : Env) (cot : Nat → Block) (r : Nat → Bool) (D : Block) : (m : List Bool) → (e : Eva) → (ops : List Op) → (q : List Msg) → Decidable (AptRun E cot r D m e ops q)
  | _, _, [], _ => isTrue trivial
  | m, e, op :: ops, q =>
    match h : e.step E cot r op q with
    | .ok (o, e1, q1, s) =>
      have := decAptRun E cot r D (mark m op) e1 ops q1
      if hc : Apt D m e op ∧ AptRun E cot r D (mark m op) e1 ops q1 then
        isTrue ⟨hc.1, fun o2 e2 q2 s2 k => by rw [h] at k; cases k; exact hc.2⟩
      else isFalse fun k => hc ⟨k.1, k.2 o e1 q1 s h⟩
    | .error x => if hc : Apt D m e op then isTrue ⟨hc, fun _ _ _ _ k => by rw [h] at k; cases k⟩ else isFalse fun k => hc k.1

/-- The result of a run has a property. -/
def Gives {α β : Type} (r : Res (α × β)) (P : β → Prop) : Prop :=
  match r with
  | .ok x => P x.2
  | .error _ => False

instance {α β : Type} (r : Res (α × β)) (P : β → Prop) [DecidablePred P] : Decidable (Gives r P) := by
  unfold Gives
  cases r <;> infer_instance

/-- The top of an adder as in `C81_adder`, with inputs of both parties. -/
def topPre (a b c a' b' : Bool) : List Op := [.inB a, .inA b, .inB c, .inB a', .inA b', .xor 0 2, .xor 1 2]
def topLin : List Op := [.xor 2 7, .xor 3 4, .xor 8 9, .not 10]

/-- The hypotheses of `C89_bit` hold for the top of an adder, for all inputs. -/
example : ∀ a b c a' b', NoCoincidence exEnv (Direct.start 0xFEDCBA9876543210FEDCBA9876543210#128) (topPre a b c a' b')
    ∧ Gives ((Direct.start 0xFEDCBA9876543210FEDCBA9876543210#128).run exEnv (topPre a b c a' b')) fun n =>
      NoCoincidence exEnv n (.and 5 6 :: (topLin ++ [.reveal .pub [10, 11]])) ∧ isPublic (n.gen.get 5) = false ∧ isPublic (n.gen.get 6) = false
      ∧ isPublic (evalGate exEnv (n.eva.get 5) (n.eva.get 6) (rows exEnv n.gen 5 6) n.eva.gid ^^^ shift n.eva 2 0 5 6) = false
      ∧ AptRun exEnv (cotM exEnv n.gen.delta) exEnv.cotR (shift n.eva 2 0 5 6) (gateMark n.eva) (afterGate exEnv n.eva 5 6 (rows exEnv n.gen 5 6)) topLin []
      ∧ (∃ x ∈ [10, 11], Circuit.get (carried n.gen.wires.length topLin) x = true) := by
  decide +kernel

/-- In the two worlds of the first operand the digests differ there: the sum of the labels is a digest that tells these candidates apart. -/
example : ∀ a b c a' b', Gives ((Direct.start 0xFEDCBA9876543210FEDCBA9876543210#128).run exEnv (topPre a b c a' b')) fun n =>
    Gives (n.run exEnv (.and 5 6 :: (topLin ++ [.reveal .pub [10]]))) fun n' => ∀ bs ∈ [[false], [true]],
      exEnv.hash (labelsAs n'.gen bs (carried n.gen.wires.length topLin) 2 0 [10] true false) ≠ exEnv.hash (labelsAs n'.gen bs (carried n.gen.wires.length topLin) 2 0 [10] false false) := by
  decide +kernel

end Verif.Props.ProbeDirect
