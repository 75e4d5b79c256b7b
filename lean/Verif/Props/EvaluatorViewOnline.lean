import Verif.Props.EvaluatorView

/-!
What the evaluator learns in the offline/online backend (C62).  It gets the garbled tables and the masks of the public openings before any input is
known, then the labels of the inputs and the bits it decodes with.  As in `EvaluatorView`, other inputs of ALICE are made up for by a one-to-one change of
the permutation under the garbling hash and here also of the labels the garbler draws for the inputs of ALICE.
-/

namespace Verif.Props.EvaluatorViewOnline
open Verif.Model Verif.Model.GC Verif.Lemmas
open Verif.Spec.Circuit (Party Op)
open Verif.Spec
open Verif.Props (SameShape Replay Prefix offNext off_step off_run on_step replay_start C16_delta getD_push exEnv setDelta_idem)
open Verif.Props.GarblerView (step_parties_on join recvBit_frame)
open Verif.Props.EvaluatorView (blindA toBob toBob_cons toBob_length theirs withPerm table_eq evalGate_same entry entry_mem entry_none Ask)

/-! ### The evaluator alone -/

theorem recvBlk_frame {q q' : List Msg} {b : Block} (h : recvBlk q = .ok (b, q')) (r : List Msg) : recvBlk (q ++ r) = .ok (b, q' ++ r) := by
  unfold recvBlk at h
  split at h
  · cases h; rfl
  · cases h

theorem onEvaReveal_frame (p : Party) (pv : List Bool) (ls : List Block) : ∀ {c c' : Nat} {q q' s : List Msg} {b : List Bool},
    onEvaReveal p pv c ls q = .ok (b, c', q', s) → ∀ r, onEvaReveal p pv c ls (q ++ r) = .ok (b, c', q' ++ r, s) := by
  induction ls with
  | nil => intro c c' q q' s b h r; cases h; rfl
  | cons l ls ih =>
    intro c c' q q' s b h r
    cases p with
    | bob =>
      simp only [onEvaReveal, bind, Except.bind] at h ⊢
      cases hb : recvBit q with
      | error x => rw [hb] at h; cases h
      | ok x =>
        rw [hb] at h
        rw [recvBit_frame hb]
        simp only at h ⊢
        cases hx : onEvaReveal .bob pv c ls x.2 with
        | error y => rw [hx] at h; cases h
        | ok y => rw [hx] at h; cases h; rw [ih hx]
    | alice =>
      simp only [onEvaReveal, bind, Except.bind] at h ⊢
      cases hx : onEvaReveal .alice pv c ls q with
      | error y => rw [hx] at h; cases h
      | ok y => rw [hx] at h; cases h; rw [ih hx]
    | pub =>
      simp only [onEvaReveal, bind, Except.bind] at h ⊢
      cases hv : vget pv c with
      | error x => rw [hv] at h; cases h
      | ok x =>
        rw [hv] at h
        simp only at h ⊢
        cases hx : onEvaReveal .pub pv (c + 1) ls q with
        | error y => rw [hx] at h; cases h
        | ok y => rw [hx] at h; cases h; rw [ih hx]

/-- An operation of the evaluator in the joint run is one of the evaluator alone, and the messages that follow do not matter. -/
theorem alone_frame (E : Env) (n : OnNet) (op : Op) {m q' s : List Msg} {o : Option (List Bool)} {e' : OnEva} (hq : n.toEva = [])
    (hm : ∀ b, op = .inB b → m = [])
    (h : n.eva.step E (E.prg n.gen.prgPos, E.prg n.gen.prgPos ^^^ n.gen.delta) op (n.toEva ++ m) = .ok (o, e', q', s)) (r : List Msg) :
    n.eva.alone E (blindA op) (m ++ n.chosen E op ++ r) = .ok (o, e', q' ++ r, s) := by
  rw [hq, List.nil_append] at h
  cases op with
  | inB b =>
    have := hm b rfl
    subst this
    simp only [OnEva.step] at h
    cases h
    rfl
  | pub b => cases h; simp [OnEva.alone, blindA, OnEva.step, OnNet.chosen]
  | xor i j => cases h; simp [OnEva.alone, blindA, OnEva.step, OnNet.chosen]
  | not i => cases h; simp [OnEva.alone, blindA, OnEva.step, OnNet.chosen]
  | inA b =>
    simp only [OnEva.alone, blindA, OnEva.step, OnNet.chosen, List.append_nil, bind, Except.bind] at h ⊢
    cases hb : recvBlk m with
    | error x => rw [hb] at h; cases h
    | ok x => rw [hb] at h; rw [recvBlk_frame hb]; cases h; rfl
  | and i j =>
    simp only [OnEva.alone, blindA, OnEva.step, OnNet.chosen, List.append_nil, bind, Except.bind] at h ⊢
    cases h1 : vget n.eva.gc (n.eva.gid * 2) with
    | error x => rw [h1] at h; cases h
    | ok x =>
      rw [h1] at h
      simp only at h ⊢
      cases h2 : vget n.eva.gc (n.eva.gid * 2 + 1) with
      | error x => rw [h2] at h; cases h
      | ok x => rw [h2] at h; cases h; rfl
  | reveal p ws =>
    simp only [OnEva.alone, blindA, OnEva.step, OnNet.chosen, List.append_nil, bind, Except.bind] at h ⊢
    cases hb : onEvaReveal p n.eva.pubValues n.eva.revealCounter (ws.map (n.eva.get E)) m with
    | error x => rw [hb] at h; cases h
    | ok x => rw [hb] at h; rw [onEvaReveal_frame _ _ _ hb]; cases h; rfl

/-! ### The offline phase of the two runs -/

/-- The environment with another permutation and other labels. -/
def withBoth (E : Env) (P : Block → Block) (Q : Nat → Block) : Env := { E with perm := P, prg := Q }

/-- The label the evaluator will hold on a wire: that of the value of the wire in the online phase. -/
def active (E : Env) (m : OffNet) (w : List Bool) (i : Nat) : Block := m.gen.get E i ^^^ sel (Circuit.get w i) m.gen.delta

/-- The points of the permutation the evaluator will ask for. -/
def askedOp (E : Env) (m : OffNet) (w : List Bool) : Op → List Block
  | .and i j => [E.sigma (active E m w i) ^^^ tweak1 m.gen.gid, E.sigma (active E m w j) ^^^ tweak2 m.gen.gid]
  | _ => []

/-- The other points of the garbler, with what the permutation has to be changed by when the wires have the values `w'` instead of `w`. -/
def patchOp (E : Env) (m : OffNet) (w w' : List Bool) : Op → List (Block × Block)
  | .and i j => [(E.sigma (active E m w i ^^^ m.gen.delta) ^^^ tweak1 m.gen.gid, sel (Circuit.get w j != Circuit.get w' j) m.gen.delta),
      (E.sigma (active E m w j ^^^ m.gen.delta) ^^^ tweak2 m.gen.gid, sel (Circuit.get w i != Circuit.get w' i) m.gen.delta)]
  | _ => []

/-- All points the evaluator asks for. -/
def asked (E : Env) (m : OffNet) (w : List Bool) : List Op → List Block
  | [] => []
  | op :: ops => askedOp E m w op ++ asked E (offNext E m op) (Circuit.next w op) ops

/-- The changes of a run. -/
def patch (E : Env) (m : OffNet) (w w' : List Bool) : List Op → List Op → List (Block × Block)
  | op :: ops, op' :: ops' => patchOp E m w w' op ++ patch E (offNext E m op) (Circuit.next w op) (Circuit.next w' op') ops ops'
  | _, _ => []

/-- The inputs of both parties, in the order in which labels are drawn. -/
def allInputs : List Op → List Bool
  | [] => []
  | .inA b :: ops => b :: allInputs ops
  | .inB b :: ops => b :: allInputs ops
  | _ :: ops => allInputs ops

/-- The offline phases of two runs. -/
structure OffTwin (E E' : Env) (m m' : OffNet) (w w' : List Bool) : Prop where
  lsbd : lsb m.gen.delta = true
  delta : m'.gen.delta = m.gen.delta
  gid : m'.gen.gid = m.gen.gid
  prg : m'.gen.prgPos = m.gen.prgPos
  eva : m'.eva = m.eva
  off : m.toEva = []
  off' : m'.toEva = []
  gw : m.gen.wires.length = w.length
  gw' : m'.gen.wires.length = w.length
  wl : w'.length = w.length
  rel : ∀ i, m'.gen.get E' i = m.gen.get E i ^^^ sel (Circuit.get w i != Circuit.get w' i) m.gen.delta

theorem OffTwin.active {E E' : Env} {m m' : OffNet} {w w' : List Bool} (h : OffTwin E E' m m' w w') (i : Nat) :
    active E' m' w' i = active E m w i := by
  simp only [EvaluatorViewOnline.active, h.rel, h.delta]
  rw [BitVec.xor_assoc, sel_xor]
  congr 2
  cases Circuit.get w i <;> cases Circuit.get w' i <;> rfl

theorem OffTwin.push {E : Env} {P : Block → Block} {Q : Nat → Block} {m m' k k' : OffNet} {w w' : List Bool} (h : OffTwin E (withBoth E P Q) m m' w w')
    {x x' : Block} {v v' : Bool} (hx : x' = x ^^^ sel (v != v') m.gen.delta) (d : k.gen.delta = m.gen.delta) (d' : k'.gen.delta = m'.gen.delta)
    (kw : k.gen.wires = m.gen.wires ++ [x]) (kw' : k'.gen.wires = m'.gen.wires ++ [x']) (gid : k'.gen.gid = k.gen.gid)
    (prg : k'.gen.prgPos = k.gen.prgPos) (eva : k'.eva = k.eva) (off : k.toEva = []) (off' : k'.toEva = []) :
    OffTwin E (withBoth E P Q) k k' (w ++ [v]) (w' ++ [v']) := by
  refine ⟨by rw [d]; exact h.lsbd, by rw [d', d, h.delta], gid, prg, eva, off, off', by simp [kw, h.gw], by simp [kw', h.gw'], by simp [h.wl], ?_⟩
  intro i
  have := h.rel i
  simp only [OffGen.get, Circuit.get, d, d', kw, kw', getD_push, h.gw, h.gw', h.wl] at this ⊢
  by_cases hi : i = w.length
  · simp only [hi, if_true]; exact hx
  · simp only [hi, if_false]; exact this

/-- One operation of the offline phase in the two runs. -/
theorem off_twin {E : Env} {P : Block → Block} {Q : Nat → Block} {m m' : OffNet} {w w' : List Bool} (h : OffTwin E (withBoth E P Q) m m' w w') {op op' : Op}
    (hb : blindA op = blindA op') (hk : ∀ x ∈ askedOp E m w op, P x = E.perm x) (hp : ∀ x ∈ patchOp E m w w' op, P x.1 = E.perm x.1 ^^^ x.2)
    (hq : ∀ b b', allInputs [op] = [b] → allInputs [op'] = [b'] → Q m.gen.prgPos = E.prg m.gen.prgPos ^^^ sel (b != b') m.gen.delta)
    (ho : toBob (Circuit.opened w [op]) = toBob (Circuit.opened w' [op'])) :
    OffTwin E (withBoth E P Q) (offNext E m op) (offNext (withBoth E P Q) m' op') (Circuit.next w op) (Circuit.next w' op')
      ∧ askedOp (withBoth E P Q) m' w' op' = askedOp E m w op ∧ patchOp (withBoth E P Q) m' w' w op' = patchOp E m w w' op := by
  cases op with
  | inA b =>
    cases op' <;> simp only [blindA, reduceCtorEq] at hb
    rename_i b'
    refine ⟨?_, rfl, rfl⟩
    refine h.push (x := E.prg m.gen.prgPos) (x' := Q m'.gen.prgPos) (v := b) (v' := b') ?_ rfl rfl rfl rfl h.gid (congrArg (· + 1) h.prg) h.eva h.off h.off'
    rw [h.prg]
    exact hq b b' rfl rfl
  | pub b =>
    cases op' <;> simp only [blindA, reduceCtorEq, Op.pub.injEq] at hb
    subst hb
    refine ⟨?_, rfl, rfl⟩
    refine h.push (x := genConst E m.gen.delta b) (x' := genConst E m'.gen.delta b) (v := b) (v' := b) ?_ rfl rfl rfl rfl h.gid h.prg h.eva h.off h.off'
    rw [h.delta]; simp [sel]
  | inB b =>
    cases op' <;> simp only [blindA, reduceCtorEq, Op.inB.injEq] at hb
    subst hb
    refine ⟨?_, rfl, rfl⟩
    refine h.push (x := E.prg m.gen.prgPos) (x' := Q m'.gen.prgPos) (v := b) (v' := b) ?_ rfl rfl rfl rfl h.gid (congrArg (· + 1) h.prg) h.eva h.off h.off'
    rw [h.prg]
    exact hq b b rfl rfl
  | xor i j =>
    cases op' <;> simp only [blindA, reduceCtorEq, Op.xor.injEq] at hb
    obtain ⟨rfl, rfl⟩ := hb
    refine ⟨?_, rfl, rfl⟩
    refine h.push (x := m.gen.get E i ^^^ m.gen.get E j) (x' := m'.gen.get (withBoth E P Q) i ^^^ m'.gen.get (withBoth E P Q) j)
      (v := Circuit.get w i != Circuit.get w j) (v' := Circuit.get w' i != Circuit.get w' j) ?_ rfl rfl rfl rfl h.gid h.prg h.eva h.off h.off'
    rw [h.rel i, h.rel j]
    have : ∀ (a b : Block) (c c' e e' : Bool), (a ^^^ sel (c != c') m.gen.delta) ^^^ (b ^^^ sel (e != e') m.gen.delta)
        = (a ^^^ b) ^^^ sel ((c != e) != (c' != e')) m.gen.delta := by
      intro a b c c' e e'
      have : (a ^^^ sel (c != c') m.gen.delta) ^^^ (b ^^^ sel (e != e') m.gen.delta)
        = (a ^^^ b) ^^^ (sel (c != c') m.gen.delta ^^^ sel (e != e') m.gen.delta) := by ac_rfl
      rw [this, sel_xor]
      congr 2; cases c <;> cases c' <;> cases e <;> cases e' <;> rfl
    exact this _ _ _ _ _ _
  | not i =>
    cases op' <;> simp only [blindA, reduceCtorEq, Op.not.injEq] at hb
    subst hb
    refine ⟨?_, rfl, rfl⟩
    refine h.push (x := m.gen.get E i ^^^ m.gen.delta) (x' := m'.gen.get (withBoth E P Q) i ^^^ m'.gen.delta)
      (v := !Circuit.get w i) (v' := !Circuit.get w' i) ?_ rfl rfl rfl rfl h.gid h.prg h.eva h.off h.off'
    rw [h.rel i, h.delta]
    have : ((!Circuit.get w i) != !Circuit.get w' i) = (Circuit.get w i != Circuit.get w' i) := by
      cases Circuit.get w i <;> cases Circuit.get w' i <;> rfl
    rw [this]; ac_rfl
  | reveal p ws =>
    cases op' <;> simp only [blindA, reduceCtorEq, Op.reveal.injEq] at hb
    obtain ⟨rfl, rfl⟩ := hb
    refine ⟨?_, rfl, rfl⟩
    have hn : ∀ w, Circuit.next w (.reveal p ws) = w := by intro w; simp [Circuit.next, Circuit.newWire]
    rw [hn, hn]
    by_cases hp' : p = .pub
    · subst hp'
      have hv : ws.map (Circuit.get w) = ws.map (Circuit.get w') := by simpa [Circuit.opened, toBob] using ho
      simp only [offNext, if_true]
      refine ⟨h.lsbd, h.delta, h.gid, h.prg, ?_, h.off, h.off', h.gw, h.gw', h.wl, h.rel⟩
      simp only [h.eva]
      congr 2
      apply List.map_congr_left
      intro i hi
      have : Circuit.get w i = Circuit.get w' i := List.map_inj_left.1 hv i hi
      rw [h.rel, this]; simp [sel]
    · simp only [offNext, hp', if_false]
      exact h
  | and i j =>
    cases op' <;> simp only [blindA, reduceCtorEq, Op.and.injEq] at hb
    obtain ⟨rfl, rfl⟩ := hb
    have ha := h.active
    refine ⟨?_, ?_, ?_⟩
    · simp only [askedOp, patchOp, List.mem_cons, List.not_mem_nil, or_false, forall_eq_or_imp, forall_eq] at hk hp
      have g : ∀ i, m.gen.get E i = active E m w i ^^^ sel (Circuit.get w i) m.gen.delta := by
        intro i; simp only [active]; rw [BitVec.xor_assoc, sel_xor]; simp [sel]
      have g' : ∀ i, m'.gen.get (withBoth E P Q) i = active E m w i ^^^ sel (Circuit.get w' i) m.gen.delta := by
        intro i; rw [← ha, active, h.delta, BitVec.xor_assoc, sel_xor]; simp [sel]
      have ht := table_eq (va := Circuit.get w i) (vb := Circuit.get w j) (va' := Circuit.get w' i) (vb' := Circuit.get w' j) h.lsbd hk.1 hk.2 hp.1 hp.2
      rw [← g, ← g, ← g', ← g'] at ht
      have ht' : (garble (withBoth E P Q) (m'.gen.get (withBoth E P Q) i) (m'.gen.get (withBoth E P Q) i ^^^ m'.gen.delta) (m'.gen.get (withBoth E P Q) j)
          (m'.gen.get (withBoth E P Q) j ^^^ m'.gen.delta) m'.gen.delta m'.gen.gid).2
          = (garble E (m.gen.get E i) (m.gen.get E i ^^^ m.gen.delta) (m.gen.get E j) (m.gen.get E j ^^^ m.gen.delta) m.gen.delta m.gen.gid).2 := by
        rw [h.delta, h.gid]; exact ht
      have h1 := halfgate E (m.gen.get E i) (m.gen.get E j) m.gen.delta h.lsbd m.gen.gid (Circuit.get w i) (Circuit.get w j)
      have h2 := halfgate (withBoth E P Q) (m'.gen.get (withBoth E P Q) i) (m'.gen.get (withBoth E P Q) j) m'.gen.delta (by rw [h.delta]; exact h.lsbd) m'.gen.gid
        (Circuit.get w' i) (Circuit.get w' j)
      rw [ht'] at h2
      have e1 : ∀ i, m'.gen.get (withBoth E P Q) i ^^^ sel (Circuit.get w' i) m'.gen.delta = active E m w i := fun i => ha i
      have e2 : ∀ i, m.gen.get E i ^^^ sel (Circuit.get w i) m.gen.delta = active E m w i := fun i => rfl
      rw [e1, e1, h.gid] at h2
      rw [e2, e2] at h1
      have h3 : ∀ t, evalGate (withBoth E P Q) (active E m w i) (active E m w j) t m.gen.gid = evalGate E (active E m w i) (active E m w j) t m.gen.gid :=
        fun t => evalGate_same t hk.1 hk.2
      rw [h3, h1] at h2
      simp only [offNext]
      refine h.push (v := Circuit.get w i && Circuit.get w j) (v' := Circuit.get w' i && Circuit.get w' j) ?_ rfl rfl rfl rfl (congrArg (· + 1) h.gid) h.prg ?_ rfl rfl
      · rw [← h.gid] at h2 ⊢
        have h4 := congrArg (· ^^^ sel (Circuit.get w' i && Circuit.get w' j) m.gen.delta) h2
        simp only [h.delta] at h4 ⊢
        rw [BitVec.xor_assoc, BitVec.xor_assoc, sel_xor, sel_xor] at h4
        simp only [bne_self_eq_false] at h4
        rw [h4]; simp [sel]
      · rw [ht', h.eva]
    · simp only [askedOp, ha, h.gid]; rfl
    · have hbn : ∀ a b : Bool, (a != b) = (b != a) := by decide
      simp only [patchOp, ha, h.gid, h.delta, hbn (Circuit.get w' _)]; rfl

/-- The hidden points of an operation: those of the garbler with the labels the evaluator does not get. -/
def hiddenOp (E : Env) (m : OffNet) (w : List Bool) : Op → List Block
  | .and i j => [E.sigma (active E m w i ^^^ m.gen.delta) ^^^ tweak1 m.gen.gid, E.sigma (active E m w j ^^^ m.gen.delta) ^^^ tweak2 m.gen.gid]
  | _ => []

/-- All hidden points. -/
def hidden (E : Env) (m : OffNet) (w : List Bool) : List Op → List Block
  | [] => []
  | op :: ops => hiddenOp E m w op ++ hidden E (offNext E m op) (Circuit.next w op) ops

theorem patch_points (E : Env) : ∀ (ops ops' : List Op) (m : OffNet) (w w' : List Bool), ops.length = ops'.length →
    (patch E m w w' ops ops').map (·.1) = hidden E m w ops := by
  intro ops
  induction ops with
  | nil => intro ops' m w w' h; cases ops' <;> rfl
  | cons op ops ih =>
    intro ops' m w w' h
    cases ops' with
    | nil => simp at h
    | cons op' ops' =>
      simp only [patch, hidden, List.map_append]
      rw [ih ops' _ _ _ (by simpa using h)]
      cases op <;> rfl

theorem allInputs_cons (op : Op) (ops : List Op) : allInputs (op :: ops) = allInputs [op] ++ allInputs ops := by
  cases op <;> rfl

theorem offNext_prg (E : Env) (m : OffNet) (op : Op) : (offNext E m op).gen.prgPos = m.gen.prgPos + (allInputs [op]).length := by
  cases op <;> simp [offNext, OffGen.push, allInputs]
  split <;> rfl

theorem offNext_delta (E : Env) (m : OffNet) (op : Op) : (offNext E m op).gen.delta = m.gen.delta := by
  cases op <;> simp [offNext, OffGen.push]
  split <;> rfl

theorem inputs_length {op op' : Op} (h : blindA op = blindA op') : (allInputs [op']).length = (allInputs [op]).length := by
  cases op <;> cases op' <;> simp_all [blindA, allInputs]

theorem allInputs_length : ∀ {ops ops' : List Op}, ops.map blindA = ops'.map blindA → (allInputs ops').length = (allInputs ops).length
  | [], [], _ => rfl
  | [], _ :: _, h => by simp at h
  | _ :: _, [], h => by simp at h
  | op :: ops, op' :: ops', h => by
    simp only [List.map_cons, List.cons.injEq] at h
    rw [allInputs_cons op', allInputs_cons op, List.length_append, List.length_append, inputs_length h.1, allInputs_length h.2]

/-- The labels drawn in the second run, from the position `k0` on. -/
def Drawn (E : Env) (Q : Nat → Block) (d : Block) (k0 : Nat) (a b : List Bool) : Prop :=
  ∀ k, Q (k0 + k) = E.prg (k0 + k) ^^^ sel (a.getD k false != b.getD k false) d

theorem Drawn.head {E : Env} {Q : Nat → Block} {d : Block} {k0 : Nat} {op op' : Op} {ops ops' : List Op}
    (h : Drawn E Q d k0 (allInputs (op :: ops)) (allInputs (op' :: ops'))) :
    ∀ b b', allInputs [op] = [b] → allInputs [op'] = [b'] → Q k0 = E.prg k0 ^^^ sel (b != b') d := by
  intro b b' h1 h2
  have := h 0
  rw [allInputs_cons op, allInputs_cons op', h1, h2] at this
  simpa using this

theorem Drawn.tail {E : Env} {Q : Nat → Block} {d : Block} {k0 : Nat} {op op' : Op} {ops ops' : List Op} (hb : blindA op = blindA op')
    (h : Drawn E Q d k0 (allInputs (op :: ops)) (allInputs (op' :: ops'))) :
    Drawn E Q d (k0 + (allInputs [op]).length) (allInputs ops) (allInputs ops') := by
  intro k
  have := h ((allInputs [op]).length + k)
  have e1 : (allInputs (op :: ops)).getD ((allInputs [op]).length + k) false = (allInputs ops).getD k false := by
    rw [allInputs_cons]; simp [List.getD_eq_getElem?_getD, List.getElem?_append_right]
  have e2 : (allInputs (op' :: ops')).getD ((allInputs [op]).length + k) false = (allInputs ops').getD k false := by
    rw [allInputs_cons, ← inputs_length hb]; simp [List.getD_eq_getElem?_getD, List.getElem?_append_right]
  rw [e1, e2, ← Nat.add_assoc] at this
  exact this

/-- The offline phases of the two runs leave the same with the evaluator, and the points are the same. -/
theorem off_twin_run {E : Env} {P : Block → Block} {Q : Nat → Block} : ∀ (ops ops' : List Op) (m m' : OffNet) (w w' : List Bool),
    OffTwin E (withBoth E P Q) m m' w w' → ops.map blindA = ops'.map blindA →
    toBob (Circuit.opened w ops) = toBob (Circuit.opened w' ops') → (∀ x ∈ asked E m w ops, P x = E.perm x) →
    (∀ x ∈ patch E m w w' ops ops', P x.1 = E.perm x.1 ^^^ x.2) → Drawn E Q m.gen.delta m.gen.prgPos (allInputs ops) (allInputs ops') →
    asked (withBoth E P Q) m' w' ops' = asked E m w ops ∧ patch (withBoth E P Q) m' w' w ops' ops = patch E m w w' ops ops'
      ∧ ∃ f f', m.run E ops = .ok f ∧ m'.run (withBoth E P Q) ops' = .ok f' ∧ f'.eva = f.eva ∧ f.toEva = [] ∧ f'.toEva = [] := by
  intro ops
  induction ops with
  | nil =>
    intro ops' m m' w w' h hb _ _ _ _
    cases ops' with
    | nil => exact ⟨rfl, rfl, m, m', rfl, rfl, h.eva, h.off, h.off'⟩
    | cons a b => simp at hb
  | cons op ops ih =>
    intro ops' m m' w w' h hb ho hk hp hq
    cases ops' with
    | nil => simp at hb
    | cons op' ops' =>
    simp only [List.map_cons, List.cons.injEq] at hb
    obtain ⟨hb1, hb2⟩ := hb
    rw [toBob_cons w op ops, toBob_cons w' op' ops'] at ho
    obtain ⟨ho1, ho2⟩ := List.append_inj ho (toBob_length w op w' op' hb1)
    simp only [asked] at hk
    simp only [patch] at hp
    obtain ⟨t1, t2, t3⟩ := off_twin h hb1 (fun x hx => hk x (List.mem_append_left _ hx)) (fun x hx => hp x (List.mem_append_left _ hx)) hq.head ho1
    have hq' : Drawn E Q (offNext E m op).gen.delta (offNext E m op).gen.prgPos (allInputs ops) (allInputs ops') := by
      rw [offNext_delta, offNext_prg]; exact hq.tail hb1
    obtain ⟨r1, r2, f, f', r3, r4, r5, r6, r7⟩ := ih ops' _ _ _ _ t1 hb2 ho2 (fun x hx => hk x (List.mem_append_right _ hx))
      (fun x hx => hp x (List.mem_append_right _ hx)) hq'
    refine ⟨by simp only [asked, t2, r1], by simp only [patch, t3, r2], f, f', ?_, ?_, r5, r6, r7⟩
    · simp only [OffNet.run, (off_step E m h.off op).1, bind, Except.bind, r3]
    · simp only [OffNet.run, (off_step (withBoth E P Q) m' h.off' op').1, bind, Except.bind, r4]

/-! ### The online phase of the two runs -/

theorem onGet {E : Env} {f m : OffNet} {n : OnNet} {w : List Bool} (h : Replay E f m n w) (i : Nat) : n.gen.get E i = m.gen.get E i := by
  simp [OnGen.get, OffGen.get, h.gwires, h.ndelta]

/-- The joint step, taken apart. -/
theorem on_ok {E : Env} {n n1 : OnNet} {op : Op} {o : Option (Party × List Bool × List Bool)} (h : n.step E op = .ok (o, n1)) :
    ∃ g m eb s gb, n.gen.send E op = .ok (g, m)
      ∧ n.eva.step E (E.prg n.gen.prgPos, E.prg n.gen.prgPos ^^^ n.gen.delta) op (n.toEva ++ m) = .ok (eb, n1.eva, n1.toEva, s)
      ∧ g.recv E op (n.toGen ++ s) = .ok (gb, n1.gen, n1.toGen) ∧ o = join gb eb := by
  rw [step_parties_on] at h
  simp only [bind, Except.bind] at h
  cases h0 : n.gen.send E op with
  | error x => rw [h0] at h; cases h
  | ok x =>
  obtain ⟨g, m⟩ := x
  rw [h0] at h
  simp only at h
  cases h1 : n.eva.step E (E.prg n.gen.prgPos, E.prg n.gen.prgPos ^^^ n.gen.delta) op (n.toEva ++ m) with
  | error x => rw [h1] at h; cases h
  | ok x =>
  obtain ⟨eb, e, q, s⟩ := x
  rw [h1] at h
  simp only at h
  cases h2 : g.recv E op (n.toGen ++ s) with
  | error x => rw [h2] at h; cases h
  | ok x =>
  obtain ⟨gb, g', q'⟩ := x
  rw [h2] at h
  cases h
  exact ⟨g, m, eb, s, gb, rfl, h1, h2, rfl⟩

/-- The online garbler sends nothing in an input of BOB. -/
theorem send_inB {E : Env} {g g' : OnGen} {op : Op} {m : List Msg} (h : g.send E op = .ok (g', m)) : ∀ b, op = .inB b → m = [] := by
  intro b e; subst e; simp only [OnGen.send] at h; cases h; rfl

/-- One operation of the online phase in the two runs: the evaluator gets the same and does the same with it. -/
theorem on_twin {E : Env} {P : Block → Block} {Q : Nat → Block} {f f' m m' : OffNet} {n n' : OnNet} {w w' : List Bool}
    (h : OffTwin E (withBoth E P Q) m m' w w') (r : Replay E f m n w) (r' : Replay (withBoth E P Q) f' m' n' w') {op op' : Op}
    (hb : blindA op = blindA op') (hk : ∀ x ∈ askedOp E m w op, P x = E.perm x)
    (hq : ∀ b b', allInputs [op] = [b] → allInputs [op'] = [b'] → Q m.gen.prgPos = E.prg m.gen.prgPos ^^^ sel (b != b') m.gen.delta)
    (ho : toBob (Circuit.opened w [op]) = toBob (Circuit.opened w' [op']))
    {g g' : OnGen} {s s' : List Msg} (hs : n.gen.send E op = .ok (g, s)) (hs' : n'.gen.send (withBoth E P Q) op' = .ok (g', s')) :
    s' = s ∧ n'.chosen (withBoth E P Q) op' = n.chosen E op
      ∧ ∀ q, n.eva.alone (withBoth E P Q) (blindA op') q = n.eva.alone E (blindA op) q := by
  have hl : ∀ b b' : Bool, ∀ x d : Block, (if b' then (x ^^^ sel (b != b') d) ^^^ d else x ^^^ sel (b != b') d) = if b then x ^^^ d else x := by
    intro b b' x d
    cases b <;> cases b' <;> simp [sel, BitVec.xor_assoc]
  cases op with
  | inA b =>
    cases op' <;> simp only [blindA, reduceCtorEq] at hb
    rename_i b'
    simp only [OnGen.send] at hs hs'
    cases hs; cases hs'
    refine ⟨?_, rfl, fun q => rfl⟩
    rw [r.ndelta, r.prg, r'.ndelta, r'.prg, h.delta, h.prg]
    show [Msg.blk (if b' then Q m.gen.prgPos ^^^ m.gen.delta else Q m.gen.prgPos)] = _
    rw [hq b b' rfl rfl, hl]
  | pub b =>
    cases op' <;> simp only [blindA, reduceCtorEq, Op.pub.injEq] at hb
    subst hb
    simp only [OnGen.send] at hs hs'
    cases hs; cases hs'
    exact ⟨rfl, rfl, fun q => rfl⟩
  | inB b =>
    cases op' <;> simp only [blindA, reduceCtorEq, Op.inB.injEq] at hb
    subst hb
    simp only [OnGen.send] at hs hs'
    cases hs; cases hs'
    refine ⟨rfl, ?_, fun q => rfl⟩
    simp only [OnNet.chosen]
    rw [r.ndelta, r.prg, r'.ndelta, r'.prg, h.delta, h.prg]
    show [Msg.blk (if b then Q m.gen.prgPos ^^^ m.gen.delta else Q m.gen.prgPos)] = _
    rw [hq b b rfl rfl, hl]
  | xor i j =>
    cases op' <;> simp only [blindA, reduceCtorEq, Op.xor.injEq] at hb
    obtain ⟨rfl, rfl⟩ := hb
    simp only [OnGen.send] at hs hs'
    cases hs; cases hs'
    exact ⟨rfl, rfl, fun q => rfl⟩
  | not i =>
    cases op' <;> simp only [blindA, reduceCtorEq, Op.not.injEq] at hb
    subst hb
    simp only [OnGen.send] at hs hs'
    cases hs; cases hs'
    exact ⟨rfl, rfl, fun q => rfl⟩
  | and i j =>
    cases op' <;> simp only [blindA, reduceCtorEq, Op.and.injEq] at hb
    obtain ⟨rfl, rfl⟩ := hb
    have e1 : s = [] := by
      simp only [OnGen.send, bind, Except.bind] at hs
      split at hs <;> cases hs
      rfl
    have e2 : s' = [] := by
      simp only [OnGen.send, bind, Except.bind] at hs'
      split at hs' <;> cases hs'
      rfl
    refine ⟨by rw [e1, e2], rfl, fun q => ?_⟩
    simp only [askedOp, List.mem_cons, List.not_mem_nil, or_false, forall_eq_or_imp, forall_eq] at hk
    have hg : ∀ i, n.eva.get E i = active E m w i := r.rel
    have h3 : ∀ t, evalGate (withBoth E P Q) (n.eva.get E i) (n.eva.get E j) t n.eva.gid = evalGate E (n.eva.get E i) (n.eva.get E j) t n.eva.gid := by
      intro t
      rw [hg, hg, r.egid]
      exact evalGate_same t hk.1 hk.2
    have hg' : ∀ i, n.eva.get (withBoth E P Q) i = n.eva.get E i := fun i => rfl
    simp only [OnEva.alone, blindA, OnEva.step, hg', h3]
  | reveal p ws =>
    cases op' <;> simp only [blindA, reduceCtorEq, Op.reveal.injEq] at hb
    obtain ⟨rfl, rfl⟩ := hb
    simp only [OnGen.send] at hs hs'
    cases hs; cases hs'
    refine ⟨?_, rfl, fun q => rfl⟩
    by_cases hp : p = .bob
    · subst hp
      have hv : ws.map (Circuit.get w) = ws.map (Circuit.get w') := by simpa [Circuit.opened, toBob] using ho
      simp only [if_true, List.map_map]
      apply List.map_congr_left
      intro i hi
      have : Circuit.get w i = Circuit.get w' i := List.map_inj_left.1 hv i hi
      simp only [Function.comp]
      rw [onGet r, onGet r', h.rel, this]
      simp [sel]
    · simp [hp]

theorem shape_refl (op : Op) : SameShape op op := by cases op <;> simp [SameShape]

/-- Two online phases with the values, the permutation and the labels changed. -/
theorem on_twin_run {E : Env} {P : Block → Block} {Q : Nat → Block} {f f' : OffNet} : ∀ (ops ops' : List Op) (m m' : OffNet) (n n' : OnNet) (w w' : List Bool),
    OffTwin E (withBoth E P Q) m m' w w' → Replay E f m n w → Replay (withBoth E P Q) f' m' n' w' → n'.eva = n.eva →
    m.run E ops = .ok f → m'.run (withBoth E P Q) ops' = .ok f' →
    ops.map blindA = ops'.map blindA → toBob (Circuit.opened w ops) = toBob (Circuit.opened w' ops') → (∀ x ∈ asked E m w ops, P x = E.perm x) →
    (∀ x ∈ patch E m w w' ops ops', P x.1 = E.perm x.1 ^^^ x.2) → Drawn E Q m.gen.delta m.gen.prgPos (allInputs ops) (allInputs ops') →
    ∃ l k k' out, n.recordEva E ops = .ok (l, k) ∧ n'.recordEva (withBoth E P Q) ops' = .ok (l, k')
      ∧ n.eva.run E (ops.map blindA) l = .ok out ∧ n.eva.run (withBoth E P Q) (ops'.map blindA) l = .ok out := by
  intro ops
  induction ops with
  | nil =>
    intro ops' m m' n n' w w' _ _ _ _ _ _ hb _ _ _ _
    cases ops' with
    | nil => exact ⟨[], n, n', _, rfl, rfl, rfl, rfl⟩
    | cons a b => simp at hb
  | cons op ops ih =>
    intro ops' m m' n n' w w' h r r' he hf hf' hb ho hk hp hq
    cases ops' with
    | nil => simp at hb
    | cons op' ops' =>
    simp only [List.map_cons, List.cons.injEq] at hb
    obtain ⟨hb1, hb2⟩ := hb
    rw [toBob_cons w op ops, toBob_cons w' op' ops'] at ho
    obtain ⟨ho1, ho2⟩ := List.append_inj ho (toBob_length w op w' op' hb1)
    simp only [asked] at hk
    simp only [patch] at hp
    have hk1 : ∀ x ∈ askedOp E m w op, P x = E.perm x := fun x hx => hk x (List.mem_append_left _ hx)
    obtain ⟨t1, -, -⟩ := off_twin h hb1 hk1 (fun x hx => hp x (List.mem_append_left _ hx)) hq.head ho1
    have hq' : Drawn E Q (offNext E m op).gen.delta (offNext E m op).gen.prgPos (allInputs ops) (allInputs ops') := by
      rw [offNext_delta, offNext_prg]; exact hq.tail hb1
    obtain ⟨a1, a2, -⟩ := off_step E m h.off op
    obtain ⟨b1, b2, -⟩ := off_step (withBoth E P Q) m' h.off' op'
    simp only [OffNet.run, a1, bind, Except.bind] at hf
    simp only [OffNet.run, b1, bind, Except.bind] at hf'
    have pf : Prefix (offNext E m op) f := by
      obtain ⟨y, y1, _, y2, _⟩ := off_run E ops _ a2
      rw [hf] at y1; cases y1; exact y2
    have pf' : Prefix (offNext (withBoth E P Q) m' op') f' := by
      obtain ⟨y, y1, _, y2, _⟩ := off_run (withBoth E P Q) ops' _ b2
      rw [hf'] at y1; cases y1; exact y2
    obtain ⟨o, n1, s1, r1, -⟩ := on_step E f m n w op op r (shape_refl op) pf
    obtain ⟨o', n1', s1', r1', -⟩ := on_step (withBoth E P Q) f' m' n' w' op' op' r' (shape_refl op') pf'
    obtain ⟨g, s, eb, u, gb, x1, x2, x3, -⟩ := on_ok s1
    obtain ⟨g', s', eb', u', gb', y1, y2, y3, -⟩ := on_ok s1'
    obtain ⟨z1, z2, z3⟩ := on_twin h r r' hb1 hk1 hq.head ho1 x1 y1
    have al := fun t => alone_frame E n op r.toEva (send_inB x1) x2 t
    have al' := fun t => alone_frame (withBoth E P Q) n' op' r'.toEva (send_inB y1) y2 t
    have he1 : n1'.eva = n1.eva ∧ eb' = eb ∧ u' = u := by
      have c1 := al []
      have c2 := al' []
      rw [he, z2, z1, z3, c1] at c2
      simp only [Except.ok.injEq, Prod.mk.injEq] at c2
      exact ⟨c2.2.1.symm, c2.1.symm, c2.2.2.2.symm⟩
    obtain ⟨l, k, k', out, q1, q2, q3, q4⟩ := ih ops' _ _ n1 n1' _ _ t1 r1 r1' he1.1 hf hf' hb2 ho2
      (fun x hx => hk x (List.mem_append_right _ hx)) (fun x hx => hp x (List.mem_append_right _ hx)) hq'
    have al1 := al l
    rw [r1.toEva, List.nil_append] at al1
    refine ⟨s ++ n.chosen E op ++ l, k, k', (eb.toList ++ out.1, out.2.1, out.2.2.1, u ++ out.2.2.2), ?_, ?_, ?_, ?_⟩
    · simp only [OnNet.recordEva, bind, Except.bind, x1, x2, x3]
      rw [q1]
    · simp only [OnNet.recordEva, bind, Except.bind, y1, y2, y3]
      rw [q2]
      simp only [z1, z2]
    · simp only [List.map_cons, OnEva.run, al1, bind, Except.bind, q3]
    · simp only [List.map_cons, OnEva.run, z3, al1, bind, Except.bind, q4]

/-! ### The whole -/

/-- The state before the offline phase. -/
def start (d : Block) : OffNet := { gen := { delta := setDelta d } }

theorem off_shape_step (E : Env) (m : OffNet) {op op' : Op} (h : SameShape op op') : m.step E op = m.step E op' := by
  cases op <;> cases op' <;> simp only [SameShape, reduceCtorEq] at h <;> first | rfl | (cases h; rfl)

/-- The offline phase does not depend on the inputs. -/
theorem off_shape (E : Env) : ∀ {ops ops' : List Op} (m : OffNet), List.Forall₂ SameShape ops ops' → m.run E ops = m.run E ops'
  | _, _, _, .nil => rfl
  | _, _, m, .cons h1 h2 => by
    simp only [OffNet.run, bind, Except.bind, off_shape_step E m h1]
    split
    · rfl
    · exact off_shape E _ h2

theorem shape_blind {a b c : Op} (h : SameShape a b) (hb : blindA b = blindA c) : SameShape a c := by
  have key : ∀ b c : Op, blindA b = blindA c → b = c ∨ ∃ x y, b = .inA x ∧ c = .inA y := by
    intro b c h
    cases b <;> cases c <;> simp only [blindA, reduceCtorEq] at h <;>
      first
        | exact Or.inl h
        | exact Or.inr ⟨_, _, rfl, rfl⟩
  rcases key b c hb with rfl | ⟨x, y, rfl, rfl⟩
  · exact h
  · cases a <;> simp only [SameShape, reduceCtorEq] at h ⊢

theorem shapes_blind : ∀ {a b c : List Op}, List.Forall₂ SameShape a b → b.map blindA = c.map blindA → List.Forall₂ SameShape a c
  | _, _, [], .nil, _ => .nil
  | _, _, _ :: _, .nil, h => by simp at h
  | _, _, [], .cons _ _, h => by simp at h
  | _, _, _ :: _, .cons h1 h2, h => by
    simp only [List.map_cons, List.cons.injEq] at h
    exact .cons (shape_blind h1 h.1) (shapes_blind h2 h.2)

theorem join_theirs {E : Env} {ot : Block × Block} {e e' : OnEva} {g g' : OnGen} {op : Op} {q q' s t t' : List Msg} {eb : Option (List Bool)}
    {gb : Option (Party × List Bool)} (h1 : e.step E ot op q = .ok (eb, e', q', s)) (h2 : g.recv E op t = .ok (gb, g', t')) :
    theirs (join gb eb).toList = eb.toList := by
  cases op with
  | reveal p ws =>
    simp only [OnEva.step, OnGen.recv, bind, Except.bind] at h1 h2
    split at h1
    · cases h1
    · cases h1
      split at h2
      · cases h2
      · split at h2
        · cases h2
        · cases h2; rfl
  | inA b =>
    simp only [OnEva.step, OnGen.recv, bind, Except.bind] at h1 h2
    split at h1
    · cases h1
    · cases h1; cases h2; rfl
  | and i j =>
    simp only [OnEva.step, OnGen.recv, bind, Except.bind] at h1 h2
    split at h1
    · cases h1
    · split at h1
      · cases h1
      · cases h1; cases h2; rfl
  | _ => cases h1; cases h2; rfl

/-- **C62, the parties of the online phase.**  After every offline phase and for every online program that differs only in the inputs, the joint run can be
recorded; the evaluator alone — with what it stored in the offline phase, a program without the inputs of ALICE and what it gets — has the same outputs and ends in the
same state. -/
theorem C62_online_parties (E : Env) (d : Block) (ops₀ ops : List Op) (hs : List.Forall₂ SameShape ops₀ ops) :
    ∃ f os n l s, (start d).run E ops₀ = .ok f ∧ (syncOnline f).run E ops = .ok (os, n) ∧ (syncOnline f).recordEva E ops = .ok (l, n)
      ∧ (syncOnline f).eva.run E (ops.map blindA) l = .ok (theirs os, n.eva, [], s) := by
  obtain ⟨f, hf, _, _, hd⟩ := off_run E ops₀ (start d) rfl
  rw [off_shape E _ hs] at hf
  have key : ∀ (ops : List Op) (m : OffNet) (n : OnNet) (w : List Bool), m.run E ops = .ok f → Replay E f m n w →
      ∃ os n' l s, n.run E ops = .ok (os, n') ∧ n.recordEva E ops = .ok (l, n') ∧ n.eva.run E (ops.map blindA) l = .ok (theirs os, n'.eva, [], s) := by
    intro ops
    induction ops with
    | nil => intro m n w _ _; exact ⟨[], n, [], [], rfl, rfl, rfl⟩
    | cons op ops ih =>
      intro m n w hf r
      obtain ⟨a1, a2, -⟩ := off_step E m r.off op
      simp only [OffNet.run, a1, bind, Except.bind] at hf
      have pf : Prefix (offNext E m op) f := by
        obtain ⟨y, y1, _, y2, _⟩ := off_run E ops _ a2
        rw [hf] at y1; cases y1; exact y2
      obtain ⟨o, n1, s1, r1, -⟩ := on_step E f m n w op op r (shape_refl op) pf
      obtain ⟨g, s, eb, u, gb, x1, x2, x3, x4⟩ := on_ok s1
      obtain ⟨os, n', l, t, i1, i2, i3⟩ := ih _ n1 _ hf r1
      have al := alone_frame E n op r.toEva (send_inB x1) x2 l
      rw [r1.toEva, List.nil_append] at al
      refine ⟨o.toList ++ os, n', s ++ n.chosen E op ++ l, u ++ t, ?_, ?_, ?_⟩
      · simp only [OnNet.run, s1, i1, bind, Except.bind]
      · simp only [OnNet.recordEva, bind, Except.bind, x1, x2, x3]
        rw [i2]
      · have : theirs (o.toList ++ os) = eb.toList ++ theirs os := by
          have hj : theirs o.toList = eb.toList := by
            rw [x4]; exact join_theirs x2 x3
          rw [← hj]; simp [theirs]
        rw [this]
        simp only [List.map_cons, OnEva.run, al, bind, Except.bind, i3]
  obtain ⟨os, n, l, s, k1, k2, k3⟩ := key ops (start d) (syncOnline f) [] hf (replay_start E d f hd)
  exact ⟨f, os, n, l, s, by rw [off_shape E _ hs]; exact hf, k1, k2, k3⟩

/-- Everything the evaluator gets and makes of it: tables and masks of the offline phase (and what it left unread), then the messages of the online phase, the values it
outputs, its labels, the messages it sends. -/
def view (E : Env) (d : Block) (ops₀ ops : List Op) : Option (OffEva × List Msg × List Msg × List (List Bool) × OnEva × List Msg × List Msg) :=
  match (start d).run E ops₀ with
  | .error _ => none
  | .ok f =>
    match (syncOnline f).recordEva E ops with
    | .error _ => none
    | .ok (l, _) =>
      match (syncOnline f).eva.run E (ops.map blindA) l with
      | .error _ => none
      | .ok out => some (f.eva, f.toEva, l, out)

/-- No coincidence: the hidden points are all different and none is asked for by the evaluator. -/
def Good (E : Env) (d : Block) (ops : List Op) : Prop :=
  (hidden E (start d) [] ops).Nodup ∧ ∀ x ∈ hidden E (start d) [] ops, x ∉ asked E (start d) [] ops

/-- The permutation of `E`, changed for the inputs of `ops'` instead of those of `ops`. -/
def repair (E : Env) (d : Block) (ops ops' : List Op) (x : Block) : Block := E.perm x ^^^ entry (patch E (start d) [] [] ops ops') x

/-- The labels of `E`, changed for the inputs of `ops'` instead of those of `ops`. -/
def relabel (E : Env) (d : Block) (ops ops' : List Op) (k : Nat) : Block :=
  E.prg k ^^^ sel ((allInputs ops).getD k false != (allInputs ops').getD k false) (setDelta d)

/-- The other environment. -/
def other (E : Env) (d : Block) (ops ops' : List Op) : Env := withBoth E (repair E d ops ops') (relabel E d ops ops')

/-- **C62, offline/online.**  Two online programs that differ only in the inputs of ALICE and open the same values to BOB look the same to the evaluator, after the same
offline program: with the changed permutation and the changed labels there are no coincidences either, the evaluator stores the same in the offline phase and gets, holds,
outputs and sends the same in the online phase.  Both changes are undone by the changes in the other direction. -/
theorem C62_online_private (E : Env) (d : Block) (ops₀ ops ops' : List Op) (hs : List.Forall₂ SameShape ops₀ ops) (hb : ops.map blindA = ops'.map blindA)
    (ho : toBob (Circuit.opened [] ops) = toBob (Circuit.opened [] ops')) (hg : Good E d ops) :
    Good (other E d ops ops') d ops' ∧ (view E d ops₀ ops).isSome ∧ view (other E d ops ops') d ops₀ ops' = view E d ops₀ ops
      ∧ repair (other E d ops ops') d ops' ops = E.perm ∧ relabel (other E d ops ops') d ops' ops = E.prg := by
  have hl : ops.length = ops'.length := by simpa using congrArg List.length hb
  have hpp := patch_points E ops ops' (start d) [] [] hl
  have ht : OffTwin E (other E d ops ops') (start d) (start d) [] [] := by
    refine ⟨C16_delta d, rfl, rfl, rfl, rfl, rfl, rfl, rfl, rfl, rfl, fun i => ?_⟩
    simp [OffGen.get, start, Circuit.get, sel, genConst, other, withBoth]
  have hk : ∀ x ∈ asked E (start d) [] ops, repair E d ops ops' x = E.perm x := by
    intro x hx
    have : x ∉ (patch E (start d) [] [] ops ops').map (·.1) := by
      rw [hpp]; intro h; exact hg.2 x h hx
    simp [repair, entry_none this]
  have hp : ∀ x ∈ patch E (start d) [] [] ops ops', repair E d ops ops' x.1 = E.perm x.1 ^^^ x.2 := by
    intro x hx
    rw [repair, entry_mem (by rw [hpp]; exact hg.1) hx]
  have hq : Drawn E (relabel E d ops ops') (start d).gen.delta (start d).gen.prgPos (allInputs ops) (allInputs ops') := by
    intro k
    show relabel E d ops ops' (0 + k) = E.prg (0 + k) ^^^ _
    rw [Nat.zero_add]
    rfl
  obtain ⟨t1, t2, f, f', t3, t4, t5, t6, t7⟩ := off_twin_run ops ops' (start d) (start d) [] [] ht hb ho hk hp hq
  have hd : f.gen.delta = setDelta d := by
    obtain ⟨y, y1, _, _, y2⟩ := off_run E ops (start d) rfl
    rw [t3] at y1; cases y1; exact y2
  have hd' : f'.gen.delta = setDelta d := by
    obtain ⟨y, y1, _, _, y2⟩ := off_run (other E d ops ops') ops' (start d) rfl
    rw [show (start d).run (other E d ops ops') ops' = _ from t4] at y1; cases y1; exact y2
  have he : (syncOnline f').eva = (syncOnline f).eva := by simp [syncOnline, t5]
  obtain ⟨l, k, k', out, u1, u2, u3, u4⟩ := on_twin_run ops ops' (start d) (start d) (syncOnline f) (syncOnline f') [] [] ht (replay_start E d f hd)
    (replay_start (other E d ops ops') d f' hd') he t3 t4 hb ho hk hp hq
  have t3' : (start d).run E ops₀ = .ok f := by rw [off_shape E _ hs]; exact t3
  have t4' : (start d).run (other E d ops ops') ops₀ = .ok f' := by rw [off_shape _ _ (shapes_blind hs hb)]; exact t4
  have u2' : (syncOnline f').recordEva (other E d ops ops') ops' = .ok (l, k') := u2
  have u4' : (syncOnline f).eva.run (other E d ops ops') (ops'.map blindA) l = .ok out := u4
  refine ⟨?_, ?_, ?_, ?_, ?_⟩
  · have hh : hidden (other E d ops ops') (start d) [] ops' = hidden E (start d) [] ops := by
      rw [← patch_points _ ops' ops (start d) [] [] hl.symm, ← hpp]
      exact congrArg _ t2
    have ha : asked (other E d ops ops') (start d) [] ops' = asked E (start d) [] ops := t1
    rw [Good, hh, ha]; exact hg
  · simp only [view, t3', u1, u3, Option.isSome_some]
  · simp only [view, t3', t4', u1, u2', u3, he, u4', t5, t6, t7]
  · funext x
    have : patch (other E d ops ops') (start d) [] [] ops' ops = patch E (start d) [] [] ops ops' := t2
    simp only [repair, this]
    rw [show (other E d ops ops').perm x = repair E d ops ops' x from rfl, repair, BitVec.xor_assoc, BitVec.xor_self, BitVec.xor_zero]
  · funext k
    have hbn : ∀ a b : Bool, (a != b) = (b != a) := by decide
    rw [relabel, show (other E d ops ops').prg k = relabel E d ops ops' k from rfl, relabel, hbn ((allInputs ops').getD k false),
      BitVec.xor_assoc, BitVec.xor_self, BitVec.xor_zero]

theorem points_form (E : Env) : ∀ (ops : List Op) (m : OffNet) (w : List Bool), ∀ x ∈ hidden E m w ops,
    ∃ L t, E.sigma L ^^^ t ∈ asked E m w ops ∧ x = E.sigma (L ^^^ m.gen.delta) ^^^ t := by
  intro ops
  induction ops with
  | nil => intro m w x hx; cases hx
  | cons op ops ih =>
    intro m w x hx
    simp only [hidden, asked] at hx ⊢
    rcases List.mem_append.1 hx with hx | hx
    · cases op with
      | and i j =>
        simp only [hiddenOp, List.mem_cons, List.not_mem_nil, or_false] at hx
        rcases hx with rfl | rfl
        · exact ⟨active E m w i, _, by simp [askedOp], rfl⟩
        · exact ⟨active E m w j, _, by simp [askedOp], rfl⟩
      | _ => cases hx
    · obtain ⟨L, t, h1, h2⟩ := ih _ _ x hx
      rw [offNext_delta] at h2
      exact ⟨L, t, List.mem_append_right _ h1, h2⟩

/-- **C62, where the permutation is changed, offline/online.**  As `C62_change`. -/
theorem C62_online_change (E : Env) (d : Block) (ops ops' : List Op) (hb : ops.map blindA = ops'.map blindA) (hg : Good E d ops) (x : Block)
    (hx : repair E d ops ops' x ≠ E.perm x) :
    x ∉ asked E (start d) [] ops ∧ ∃ L t, E.sigma L ^^^ t ∈ asked E (start d) [] ops ∧ x = E.sigma (L ^^^ setDelta d) ^^^ t := by
  have hl : ops.length = ops'.length := by simpa using congrArg List.length hb
  have hpp := patch_points E ops ops' (start d) [] [] hl
  have hm : x ∈ hidden E (start d) [] ops := by
    rw [← hpp]
    apply Decidable.byContradiction
    intro h
    exact hx (by simp [repair, entry_none h])
  exact ⟨hg.2 x hm, points_form E ops (start d) [] x hm⟩

/-- **C62, distinguishers, offline/online.**  As `C62_distinguisher`; the labels come from a generator whose seed the evaluator does not have. -/
theorem C62_online_distinguisher {α : Type} (E : Env) (d : Block) (ops₀ ops ops' : List Op) (hs : List.Forall₂ SameShape ops₀ ops)
    (hb : ops.map blindA = ops'.map blindA) (ho : toBob (Circuit.opened [] ops) = toBob (Circuit.opened [] ops')) (hg : Good E d ops)
    (D : Option (OffEva × List Msg × List Msg × List (List Bool) × OnEva × List Msg × List Msg) → Ask α)
    (hD : ∀ x ∈ (D (view E d ops₀ ops)).points E.perm, ∀ L t, E.sigma L ^^^ t ∈ asked E (start d) [] ops → x ≠ E.sigma (L ^^^ setDelta d) ^^^ t) :
    (D (view (other E d ops ops') d ops₀ ops')).run (repair E d ops ops') = (D (view E d ops₀ ops)).run E.perm := by
  rw [(C62_online_private E d ops₀ ops ops' hs hb ho hg).2.2.1]
  revert hD
  generalize D (view E d ops₀ ops) = t
  intro hD
  induction t with
  | done a => rfl
  | ask x k ih =>
    have hx : repair E d ops ops' x = E.perm x := by
      apply Decidable.byContradiction
      intro hn
      obtain ⟨_, L, t, h1, h2⟩ := C62_online_change E d ops ops' hb hg x hn
      exact hD x List.mem_cons_self L t h1 h2
    simp only [Ask.run, hx]
    exact ih _ fun y hy => hD y (List.mem_cons_of_mem _ hy)

/-- The environment with another permutation and other labels for the first `N` inputs. -/
def draw (E : Env) {N : Nat} (r : (Block → Block) × (Fin N → Block)) : Env := withBoth E r.1 fun k => if h : k < N then r.2 ⟨k, h⟩ else E.prg k

theorem draw_other (E : Env) (d : Block) {N : Nat} (r : (Block → Block) × (Fin N → Block)) (ops ops' : List Op) (h : (allInputs ops).length ≤ N)
    (h' : (allInputs ops').length ≤ N) :
    other (draw E r) d ops ops' = draw E (repair (draw E r) d ops ops', fun k : Fin N => relabel (draw E r) d ops ops' k) := by
  simp only [other, draw, withBoth, Env.mk.injEq, true_and, and_true]
  funext k
  by_cases hk : k < N
  · simp only [hk, dite_true]
  · simp only [relabel, hk, dite_false]
    rw [List.getD_eq_default _ _ (by omega), List.getD_eq_default _ _ (by omega)]
    simp [sel]

/-- **C62, distribution, offline/online.**  Of the functions from blocks to blocks and the labels of the inputs, exactly as many give the evaluator a certain view for the
one input of ALICE as for the other. -/
theorem C62_online_distribution (E : Env) (d : Block) (ops₀ ops ops' : List Op) (hs : List.Forall₂ SameShape ops₀ ops)
    (hb : ops.map blindA = ops'.map blindA) (ho : toBob (Circuit.opened [] ops) = toBob (Circuit.opened [] ops'))
    (v : Option (OffEva × List Msg × List Msg × List (List Bool) × OnEva × List Msg × List Msg)) (N : Nat) (hN : N = (allInputs ops).length) :
    Nat.card { r : (Block → Block) × (Fin N → Block) // Good (draw E r) d ops ∧ view (draw E r) d ops₀ ops = v }
      = Nat.card { r : (Block → Block) × (Fin N → Block) // Good (draw E r) d ops' ∧ view (draw E r) d ops₀ ops' = v } := by
  have key : ∀ (a b : List Op), List.Forall₂ SameShape ops₀ a → a.map blindA = b.map blindA → toBob (Circuit.opened [] a) = toBob (Circuit.opened [] b) →
      (allInputs a).length ≤ N → (allInputs b).length ≤ N →
      ∀ r : (Block → Block) × (Fin N → Block), Good (draw E r) d a →
        Good (draw E (repair (draw E r) d a b, fun k : Fin N => relabel (draw E r) d a b k)) d b
        ∧ view (draw E (repair (draw E r) d a b, fun k : Fin N => relabel (draw E r) d a b k)) d ops₀ b = view (draw E r) d ops₀ a
        ∧ (repair (draw E (repair (draw E r) d a b, fun k : Fin N => relabel (draw E r) d a b k)) d b a,
            fun k : Fin N => relabel (draw E (repair (draw E r) d a b, fun k : Fin N => relabel (draw E r) d a b k)) d b a k) = r := by
    intro a b h0 h1 h2 la lb r hg
    obtain ⟨k1, _, k3, k4, k5⟩ := C62_online_private (draw E r) d ops₀ a b h0 h1 h2 hg
    rw [draw_other E d r a b la lb] at k1 k3 k4 k5
    refine ⟨k1, k3, ?_⟩
    rw [k4, k5]
    apply Prod.ext
    · rfl
    · funext k
      simp [draw, withBoth]
  have hl := allInputs_length hb
  have key1 := key ops ops' hs hb ho (by omega) (by omega)
  have key2 := key ops' ops (shapes_blind hs hb) hb.symm ho.symm (by omega) (by omega)
  refine Nat.card_congr ⟨fun r => ⟨(repair (draw E r.1) d ops ops', fun k : Fin N => relabel (draw E r.1) d ops ops' k), ?_⟩,
    fun r => ⟨(repair (draw E r.1) d ops' ops, fun k : Fin N => relabel (draw E r.1) d ops' ops k), ?_⟩, ?_, ?_⟩
  · obtain ⟨k1, k2, _⟩ := key1 r.1 r.2.1
    exact ⟨k1, k2.trans r.2.2⟩
  · obtain ⟨k1, k2, _⟩ := key2 r.1 r.2.1
    exact ⟨k1, k2.trans r.2.2⟩
  · intro r
    exact Subtype.ext (key1 r.1 r.2.1).2.2
  · intro r
    exact Subtype.ext (key2 r.1 r.2.1).2.2

/-! ### Examples -/

instance (E : Env) (d : Block) (ops : List Op) : Decidable (Good E d ops) :=
  @instDecidableAnd _ _ inferInstance (List.decidableBAll (fun x => x ∉ asked E (start d) [] ops) (hidden E (start d) [] ops))

/-- The hypotheses are met, with other inputs in the offline phase. -/
example : List.Forall₂ SameShape (EvaluatorView.exView false false false) (EvaluatorView.exView true false true)
    ∧ EvaluatorView.exView true false true ≠ EvaluatorView.exView false true true
    ∧ (EvaluatorView.exView true false true).map blindA = (EvaluatorView.exView false true true).map blindA
    ∧ toBob (Circuit.opened [] (EvaluatorView.exView true false true)) = toBob (Circuit.opened [] (EvaluatorView.exView false true true))
    ∧ Good exEnv 6 (EvaluatorView.exView true false true) := by
  refine ⟨by repeat' constructor, by decide, by decide, by decide, by decide +kernel⟩

/-- Without the changes the views differ. -/
example : (view exEnv 6 (EvaluatorView.exView false false false) (EvaluatorView.exView true false true)).map (·.2.2.1)
    ≠ (view exEnv 6 (EvaluatorView.exView false false false) (EvaluatorView.exView false true true)).map (·.2.2.1) := by decide +kernel

end Verif.Props.EvaluatorViewOnline
