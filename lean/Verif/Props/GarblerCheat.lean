import Verif.Model.GarblerCheat
import Verif.Model.GCParty
import Verif.Props.OfflineGC

/-! C80: a garbler of the offline/online backend that does not send the tables of the code. -/

namespace Verif.Props.GarblerCheat
open Verif.Model Verif.Model.GC Verif.Lemmas Verif.Props
open Verif.Spec.Circuit (Party Op Twist gates newWireAs openedAs)
open Verif.Spec

theorem evalGate_rows (E : Env) (A B x y u v : Block) (idx : Nat) :
    evalGate E A B (x ^^^ u, y ^^^ v) idx = evalGate E A B (x, y) idx ^^^ sel (lsb A) u ^^^ sel (lsb B) v := by
  unfold evalGate
  cases lsb A <;> cases lsb B <;> simp only [sel, Bool.false_eq_true, if_false, if_true]
  · simp
  · show _ = _ ^^^ 0#128 ^^^ v
    rw [BitVec.xor_zero]; ac_rfl
  · show _ = _ ^^^ u ^^^ 0#128
    rw [BitVec.xor_zero]; ac_rfl
  · ac_rfl

theorem sel_sel (s t : Bool) (d : Block) : sel s (sel t d) = sel (s && t) d := by
  cases s <;> cases t <;> simp [sel]

/-- C80, one gate: with the changed tables the code of the evaluator gets the label of another function of the two operands. -/
theorem C80_gate (E : Env) (t : Twist) (LA LB delta : Block) (hd : delta.getLsbD 0 = true) (idx : Nat) (a b : Bool) :
    let g := garbleAs E t LA (LA ^^^ delta) LB (LB ^^^ delta) delta idx
    evalGate E (if a then LA ^^^ delta else LA) (if b then LB ^^^ delta else LB) g.2 idx
      = if t.apply a b then g.1 ^^^ delta else g.1 := by
  have hs : ∀ (x : Block) (c : Bool), (if c then x ^^^ delta else x) = x ^^^ sel c delta := by
    intro x c; cases c <;> simp [sel]
  simp only [hs]
  unfold garbleAs
  simp only
  rw [evalGate_rows]
  have h := halfgate E LA LB delta hd idx a b
  have hp : (garble E LA (LA ^^^ delta) LB (LB ^^^ delta) delta idx).2 = ((garble E LA (LA ^^^ delta) LB (LB ^^^ delta) delta idx).2.1,
    (garble E LA (LA ^^^ delta) LB (LB ^^^ delta) delta idx).2.2) := rfl
  rw [hp] at h
  rw [h, lsb_xor, lsb_xor, lsb_sel _ _ hd, lsb_sel _ _ hd, sel_sel, sel_sel]
  simp only [BitVec.xor_assoc, sel_xor]
  congr 2
  obtain ⟨l, r, f⟩ := t
  generalize lsb LA = pa
  generalize lsb LB = pb
  clear h hp
  revert a b l r f pa pb
  decide

/-- C80: the functions that can be put in place of AND are those that are true for an odd number of operands. -/
theorem C80_functions (f : Bool → Bool → Bool) :
    (∃ t : Twist, ∀ a b, t.apply a b = f a b) ↔ (((f false false ^^ f false true) ^^ f true false) ^^ f true true) = true := by
  constructor
  · rintro ⟨⟨l, r, x⟩, h⟩
    rw [← h, ← h, ← h, ← h]
    clear h
    revert l r x
    decide
  · intro h
    refine ⟨⟨f false false ^^ f true false, f false false ^^ f false true, f false false⟩, fun a b => ?_⟩
    unfold Twist.apply
    revert h
    cases a <;> cases b <;> cases f false false <;> cases f false true <;> cases f true false <;> cases f true true <;> simp

/-- The offline state after one operation. -/
def offNextAs (E : Env) (t : Nat → Twist) (m : OffNet) : Op → OffNet
  | .and i j =>
    let a := m.gen.get E i
    let b := m.gen.get E j
    let r := garbleAs E (t m.gen.gid) a (a ^^^ m.gen.delta) b (b ^^^ m.gen.delta) m.gen.delta m.gen.gid
    { gen := OffGen.push { m.gen with gid := m.gen.gid + 1, outLabels := m.gen.outLabels ++ [r.1] } r.1
      eva := { m.eva with gid := m.eva.gid + 1, gc := m.eva.gc ++ [r.2.1] ++ [r.2.2] } }
  | op => offNext E m op

theorem off_stepAs (E : Env) (t : Nat → Twist) (m : OffNet) (h : m.toEva = []) (op : Op) :
    m.stepAs E t op = .ok (offNextAs E t m op) ∧ (offNextAs E t m op).toEva = [] ∧ Prefix m (offNextAs E t m op)
      ∧ (offNextAs E t m op).gen.delta = m.gen.delta ∧ (offNextAs E t m op).gen.gid = m.gen.gid + gates op := by
  cases op with
  | and i j =>
    obtain ⟨g, e, q⟩ := m
    simp only at h
    subst h
    exact ⟨rfl, rfl, ⟨List.prefix_append _ _, ⟨_, (List.append_assoc _ _ _).symm⟩, List.prefix_rfl⟩, rfl, rfl⟩
  | reveal p ws =>
    obtain ⟨h1, h2, h3⟩ := off_step E m h (.reveal p ws)
    refine ⟨h1, h2, h3, ?_, ?_⟩ <;> simp only [offNextAs, offNext, gates] <;> split <;> rfl
  | pub b => obtain ⟨h1, h2, h3⟩ := off_step E m h (.pub b); exact ⟨h1, h2, h3, rfl, rfl⟩
  | inA b => obtain ⟨h1, h2, h3⟩ := off_step E m h (.inA b); exact ⟨h1, h2, h3, rfl, rfl⟩
  | inB b => obtain ⟨h1, h2, h3⟩ := off_step E m h (.inB b); exact ⟨h1, h2, h3, rfl, rfl⟩
  | xor i j => obtain ⟨h1, h2, h3⟩ := off_step E m h (.xor i j); exact ⟨h1, h2, h3, rfl, rfl⟩
  | not i => obtain ⟨h1, h2, h3⟩ := off_step E m h (.not i); exact ⟨h1, h2, h3, rfl, rfl⟩

theorem off_runAs (E : Env) (t : Nat → Twist) (ops : List Op) : ∀ (m : OffNet), m.toEva = [] →
    ∃ f, m.runAs E t ops = .ok f ∧ f.toEva = [] ∧ Prefix m f ∧ f.gen.delta = m.gen.delta := by
  induction ops with
  | nil => intro m h; exact ⟨m, rfl, h, ⟨List.prefix_rfl, List.prefix_rfl, List.prefix_rfl⟩, rfl⟩
  | cons op ops ih =>
    intro m h
    obtain ⟨e1, h1, p1, d1, -⟩ := off_stepAs E t m h op
    obtain ⟨f, e2, h2, p2, d2⟩ := ih _ h1
    exact ⟨f, by simp only [OffNet.runAs, e1, bind, Except.bind, e2], h2,
      ⟨p1.out.trans p2.out, p1.gc.trans p2.gc, p1.pv.trans p2.pv⟩, d2.trans d1⟩

/-- The function of gate `k`. -/
def fn (t : Nat → Twist) (k : Nat) : Bool → Bool → Bool := (t k).apply

theorem on_stepAs (E : Env) (t : Nat → Twist) (f m : OffNet) (n : OnNet) (w : List Bool) (op op' : Op) (h : Replay E f m n w)
    (hs : SameShape op op') (hp : Prefix (offNextAs E t m op) f) :
    ∃ o n', n.step E op' = .ok (o, n') ∧ Replay E f (offNextAs E t m op) n' (w ++ (newWireAs (fn t) m.gen.gid w op').toList)
      ∧ List.Forall₂ RevealOk o.toList (Circuit.opened w [op']) := by
  have other : (∀ i j, op ≠ .and i j) → ∃ o n', n.step E op' = .ok (o, n')
      ∧ Replay E f (offNextAs E t m op) n' (w ++ (newWireAs (fn t) m.gen.gid w op').toList)
      ∧ List.Forall₂ RevealOk o.toList (Circuit.opened w [op']) := by
    intro hne
    have e1 : offNextAs E t m op = offNext E m op := by
      cases op <;> first | rfl | exact absurd rfl (hne _ _)
    rw [e1] at hp ⊢
    obtain ⟨o, n', h1, h2, h3⟩ := on_step E f m n w op op' h hs hp
    refine ⟨o, n', h1, ?_, h3⟩
    have e2 : w ++ (newWireAs (fn t) m.gen.gid w op').toList = Circuit.next w op' := by
      cases op' <;> try rfl
      cases op <;> simp_all [SameShape]
    rw [e2]
    exact h2
  cases op with
  | and i j =>
    have : op' = .and i j := by cases op' <;> simp_all [SameShape]
    subst this
    have key := C80_gate E (t m.gen.gid) (m.gen.get E i) (m.gen.get E j) m.gen.delta h.delta m.gen.gid (Circuit.get w i)
      (Circuit.get w j)
    have hs : ∀ (x : Block) (c : Bool), (if c then x ^^^ m.gen.delta else x) = x ^^^ sel c m.gen.delta := by
      intro x c; cases c <;> simp [sel]
    simp only [hs] at key
    rw [← h.rel i, ← h.rel j] at key
    have hout : m.gen.outLabels ++ [(garbleAs E (t m.gen.gid) (m.gen.get E i) (m.gen.get E i ^^^ m.gen.delta) (m.gen.get E j)
      (m.gen.get E j ^^^ m.gen.delta) m.gen.delta m.gen.gid).1] <+: f.gen.outLabels := hp.out
    have hgc : m.eva.gc ++ [(garbleAs E (t m.gen.gid) (m.gen.get E i) (m.gen.get E i ^^^ m.gen.delta) (m.gen.get E j)
      (m.gen.get E j ^^^ m.gen.delta) m.gen.delta m.gen.gid).2.1] ++ [(garbleAs E (t m.gen.gid) (m.gen.get E i)
      (m.gen.get E i ^^^ m.gen.delta) (m.gen.get E j) (m.gen.get E j ^^^ m.gen.delta) m.gen.delta m.gen.gid).2.2]
      <+: f.eva.gc := hp.gc
    simp only [offNextAs]
    generalize garbleAs E (t m.gen.gid) (m.gen.get E i) (m.gen.get E i ^^^ m.gen.delta) (m.gen.get E j)
      (m.gen.get E j ^^^ m.gen.delta) m.gen.delta m.gen.gid = r at key hout hgc ⊢
    have hl := vget_prefix hout
    have hg := vget_prefix hgc
    have hg0 := vget_prefix ((List.prefix_append _ _).trans hgc)
    rw [List.length_append, List.length_singleton, h.glen, ← h.egid, ← h.gc] at hg
    rw [h.glen, ← h.egid, ← h.gc] at hg0
    rw [h.olen, ← h.ggid, ← h.out] at hl
    refine ⟨none, { n with
        gen := OnGen.push { n.gen with gid := n.gen.gid + 1 } r.1
        eva := OnEva.push { n.eva with gid := n.eva.gid + 1 }
          (evalGate E (n.eva.get E i) (n.eva.get E j) (r.2.1, r.2.2) n.eva.gid) },
      by simp only [OnNet.step, hl, hg, hg0, bind, Except.bind], ?_, .nil⟩
    rw [show evalGate E (n.eva.get E i) (n.eva.get E j) r.2 m.gen.gid = evalGate E (n.eva.get E i) (n.eva.get E j) (r.2.1, r.2.2) n.eva.gid by
      rw [h.egid]] at key
    exact h.push (v := (t m.gen.gid).apply (Circuit.get w i) (Circuit.get w j)) key rfl rfl rfl rfl rfl h.prg
      (congrArg (· + 1) h.ggid) (congrArg (· + 1) h.egid)
      (by simp [OffGen.push, h.olen]) (by simp [OffGen.push, h.glen]; omega)
      h.cnt rfl rfl rfl h.toEva h.toGen rfl
  | pub b => exact other (by simp)
  | inA b => exact other (by simp)
  | inB b => exact other (by simp)
  | xor i j => exact other (by simp)
  | not i => exact other (by simp)
  | reveal p ws => exact other (by simp)

theorem openedAs_cons (f : Nat → Bool → Bool → Bool) (k : Nat) (w : List Bool) (op : Op) (ops : List Op) :
    openedAs f k w (op :: ops) = Circuit.opened w [op] ++ openedAs f (k + gates op) (w ++ (newWireAs f k w op).toList) ops := by
  cases op <;> simp [openedAs, Circuit.opened, newWireAs, Circuit.newWire, gates]

theorem off_on_runAs (E : Env) (t : Nat → Twist) (f : OffNet) (ops : List Op) : ∀ (ops' : List Op) (m : OffNet) (n : OnNet) (w : List Bool),
    List.Forall₂ SameShape ops ops' → m.runAs E t ops = .ok f → Replay E f m n w →
    ∃ os n', n.run E ops' = .ok (os, n') ∧ List.Forall₂ RevealOk os (openedAs (fn t) m.gen.gid w ops')
      ∧ n'.toEva = [] ∧ n'.toGen = [] ∧ n'.gen.gid = f.gen.gid ∧ n'.eva.gid = f.gen.gid := by
  induction ops with
  | nil =>
    intro ops' m n w hs hr h
    cases hs
    simp only [OffNet.runAs, Except.ok.injEq] at hr
    subst hr
    exact ⟨[], n, rfl, .nil, h.toEva, h.toGen, h.ggid, h.egid⟩
  | cons op ops ih =>
    intro ops' m n w hs hr h
    cases hs with
    | cons h1 h2 =>
      rename_i op' ops''
      obtain ⟨e1, q1, p1, d1, g1⟩ := off_stepAs E t m h.off op
      simp only [OffNet.runAs, e1, bind, Except.bind] at hr
      obtain ⟨f', e2, _, p2, _⟩ := off_runAs E t ops _ q1
      have hf : f' = f := by rw [e2] at hr; exact Except.ok.inj hr
      subst hf
      obtain ⟨o, n1, s1, r1, o1⟩ := on_stepAs E t f' m n w op op' h h1 p2
      obtain ⟨os, n2, s2, o2, rest⟩ := ih ops'' _ n1 _ h2 hr r1
      refine ⟨o.toList ++ os, n2, by simp only [OnNet.run, s1, s2, bind, Except.bind], ?_, rest⟩
      rw [openedAs_cons]
      rw [g1] at o2
      have hg : gates op = gates op' := by cases op <;> cases op' <;> simp_all [SameShape, gates]
      rw [hg] at o2
      exact List.rel_append o1 o2

/-- C80: for every program, every choice of functions that are true for an odd number of operands, one for each gate, there are tables such that both
phases succeed, with the code of the evaluator and the online code of the garbler, and every opening gives both parties the values of the program with those functions in place of AND. -/
theorem C80_run (E : Env) (d : Block) (f : Nat → Bool → Bool → Bool)
    (hf : ∀ k, (((f k false false ^^ f k false true) ^^ f k true false) ^^ f k true true) = true)
    (ops ops' : List Op) (hs : List.Forall₂ SameShape ops ops') :
    ∃ t F os n', OffNet.runAs E t { gen := { delta := setDelta d } } ops = .ok F
      ∧ (syncOnline F).run E ops' = .ok (os, n')
      ∧ List.Forall₂ RevealOk os (openedAs f 0 [] ops')
      ∧ n'.toEva = [] ∧ n'.toGen = [] ∧ n'.gen.gid = F.gen.gid ∧ n'.eva.gid = F.gen.gid := by
  have hc : ∀ k, ∃ t : Twist, ∀ a b, t.apply a b = f k a b := fun k => (C80_functions (f k)).2 (hf k)
  choose t ht using hc
  have hft : fn t = f := by
    funext k a b
    exact ht k a b
  obtain ⟨F, e, _, _, hd⟩ := off_runAs E t ops { gen := { delta := setDelta d } } rfl
  obtain ⟨os, n', r, a, rest⟩ := off_on_runAs E t F ops ops' _ _ [] hs e (replay_start E d F hd)
  rw [hft] at a
  exact ⟨t, F, os, n', e, r, a, rest⟩

/-- With AND in every gate this is the code (C18). -/
theorem C80_honest (E : Env) (n : OffNet) (ops : List Op) : n.runAs E (fun _ => ⟨false, false, false⟩) ops = n.run E ops := by
  induction ops generalizing n with
  | nil => rfl
  | cons op ops ih =>
    have : n.stepAs E (fun _ => ⟨false, false, false⟩) op = n.step E op := by
      cases op with
      | and i j =>
        have hz : ∀ x : Block, x ^^^ sel false n.gen.delta = x := by intro x; simp [sel]
        simp only [OffNet.stepAs, OffNet.step, garbleAs, hz, Bool.false_and, Bool.xor_false]
      | _ => rfl
    simp only [OffNet.runAs, OffNet.run, this, bind, Except.bind]
    cases n.step E op with
    | error e => rfl
    | ok m => exact ih m

/-- C80: a program that opens nothing about BOB's input (it opens the product with ALICE's bit, which is zero) opens that input to ALICE. -/
theorem C80_leak (E : Env) (d : Block) (b : Bool) :
    Circuit.opened [] [.inA false, .inB b, .and 0 1, .reveal .alice [2]] = [(.alice, [false])]
    ∧ ∃ t F os n', OffNet.runAs E t { gen := { delta := setDelta d } } [.inA false, .inB false, .and 0 1, .reveal .alice [2]] = .ok F
      ∧ (syncOnline F).run E [.inA false, .inB b, .and 0 1, .reveal .alice [2]] = .ok (os, n') ∧ os.map (fun o => o.2.1) = [[b]] := by
  refine ⟨by simp [Circuit.opened, Circuit.next, Circuit.newWire, Circuit.get], ?_⟩
  obtain ⟨t, F, os, n', h1, h2, h3, -⟩ := C80_run E d (fun _ a b => (a && b) ^^ b) (by intro k; rfl) [.inA false, .inB false, .and 0 1, .reveal .alice [2]]
    [.inA false, .inB b, .and 0 1, .reveal .alice [2]] (by repeat' constructor)
  refine ⟨t, F, os, n', h1, h2, ?_⟩
  have : openedAs (fun _ a b => (a && b) ^^ b) 0 [] [.inA false, .inB b, .and 0 1, .reveal .alice [2]] = [(.alice, [b])] := by
    simp [openedAs, newWireAs, Circuit.newWire, Circuit.get]
  rw [this] at h3
  cases h3 with
  | cons h4 h5 =>
    cases h5
    simp only [List.map_cons, List.map_nil]
    rw [h4.2.1 (by rw [h4.1]; simp)]

/-! ### The evaluator checks nothing -/

/-- Kind of a message. -/
inductive Kind where
  | blk | bit | other
deriving DecidableEq

def kind : Msg → Kind
  | .blk _ => .blk
  | .bit _ => .bit
  | _ => .other

/-- Kinds of the messages the evaluator gets in the online phase (an input of BOB: the result of the oblivious transfer). -/
def gets : Op → List Kind
  | .inA _ => [.blk]
  | .inB _ => [.blk]
  | .reveal .bob ws => List.replicate ws.length .bit
  | _ => []

/-- Bits opened to both parties. -/
def pubBits : Op → Nat
  | .reveal .pub ws => ws.length
  | _ => 0

theorem evaReveal_bob_any (pv : List Bool) (c : Nat) : ∀ (el : List Block) (q : List Msg) (ks : List Kind),
    q.map kind = List.replicate el.length .bit ++ ks →
    ∃ bs q', onEvaReveal .bob pv c el q = .ok (bs, c, q', []) ∧ q'.map kind = ks := by
  intro el
  induction el with
  | nil => intro q ks h; exact ⟨[], q, rfl, by simpa using h⟩
  | cons l el ih =>
    intro q ks h
    cases q with
    | nil => simp [List.replicate_succ] at h
    | cons m q =>
      simp only [List.length_cons, List.replicate_succ, List.map_cons, List.cons_append, List.cons.injEq] at h
      obtain ⟨h1, h2⟩ := h
      cases m <;> simp [kind] at h1
      obtain ⟨bs, q', e, hk⟩ := ih q ks h2
      rename_i b
      exact ⟨(b != lsb l) :: bs, q', by simp only [onEvaReveal, recvBit, bind, Except.bind, e], hk⟩

theorem evaReveal_pub_any (pv : List Bool) : ∀ (el : List Block) (c : Nat) (q : List Msg), c + el.length ≤ pv.length →
    ∃ bs, onEvaReveal .pub pv c el q = .ok (bs, c + el.length, q, []) := by
  intro el
  induction el with
  | nil => intro c q h; exact ⟨[], rfl⟩
  | cons l el ih =>
    intro c q h
    simp only [List.length_cons] at h
    obtain ⟨bs, e⟩ := ih (c + 1) q (by omega)
    have hv : vget pv c = .ok (pv[c]'(by omega)) := by
      unfold vget
      rw [List.getElem?_eq_getElem (by omega)]
    refine ⟨(pv[c]'(by omega) != lsb l) :: bs, by simp only [onEvaReveal, hv, bind, Except.bind, e, List.length_cons]; rw [show c + 1 + el.length = c + (el.length + 1) by omega]⟩

theorem evaReveal_alice_any (pv : List Bool) (c : Nat) (q : List Msg) : ∀ (el : List Block),
    ∃ bs s, onEvaReveal .alice pv c el q = .ok (bs, c, q, s) := by
  intro el
  induction el with
  | nil => exact ⟨[], [], rfl⟩
  | cons l el ih =>
    obtain ⟨bs, s, e⟩ := ih
    exact ⟨false :: bs, .bit (lsb l) :: s, by simp only [onEvaReveal, bind, Except.bind, e]⟩

/-- C80: whatever tables and masks the evaluator was given offline (enough of them), and whatever blocks and bits it gets online, its code runs to
the end: it does not check anything. -/
theorem C80_no_check (E : Env) : ∀ (ops : List Op) (e : OnEva) (q : List Msg) (ks : List Kind),
    (e.gid + (ops.map gates).sum) * 2 ≤ e.gc.length → e.revealCounter + (ops.map pubBits).sum ≤ e.pubValues.length →
    q.map kind = ops.flatMap gets ++ ks →
    ∃ os e' q' s, e.run E ops q = .ok (os, e', q', s) ∧ q'.map kind = ks := by
  intro ops
  induction ops with
  | nil => intro e q ks _ _ h; exact ⟨[], e, q, [], rfl, by simpa using h⟩
  | cons op ops ih =>
    intro e q ks h1 h2 h3
    simp only [List.map_cons, List.sum_cons, List.flatMap_cons, List.append_assoc] at h1 h2 h3
    have one : ∃ o e1 q1 s1, e.alone E op q = .ok (o, e1, q1, s1) ∧ q1.map kind = ops.flatMap gets ++ ks
        ∧ e1.gc = e.gc ∧ e1.pubValues = e.pubValues ∧ e1.gid = e.gid + gates op ∧ e1.revealCounter = e.revealCounter + pubBits op := by
      cases op with
      | pub b => exact ⟨_, _, _, _, rfl, by simpa [gets] using h3, rfl, rfl, rfl, rfl⟩
      | xor i j => exact ⟨_, _, _, _, rfl, by simpa [gets] using h3, rfl, rfl, rfl, rfl⟩
      | not i => exact ⟨_, _, _, _, rfl, by simpa [gets] using h3, rfl, rfl, rfl, rfl⟩
      | inA b =>
        cases q with
        | nil => simp [gets] at h3
        | cons m q =>
          simp only [gets, List.map_cons, List.cons_append, List.nil_append, List.cons.injEq] at h3
          cases m <;> simp [kind] at h3
          rename_i x
          exact ⟨none, e.push x, q, [], by simp only [OnEva.alone, OnEva.step, recvBlk, bind, Except.bind], h3, rfl, rfl, rfl, rfl⟩
      | inB b =>
        cases q with
        | nil => simp [gets] at h3
        | cons m q =>
          simp only [gets, List.map_cons, List.cons_append, List.nil_append, List.cons.injEq] at h3
          cases m <;> simp [kind] at h3
          rename_i x
          exact ⟨none, e.push x, q, [], by simp only [OnEva.alone, recvBlk, bind, Except.bind], h3, rfl, rfl, rfl, rfl⟩
      | and i j =>
        simp only [gates] at h1
        have v1 : vget e.gc (e.gid * 2) = .ok (e.gc[e.gid * 2]'(by omega)) := by
          unfold vget; rw [List.getElem?_eq_getElem (by omega)]
        have v2 : vget e.gc (e.gid * 2 + 1) = .ok (e.gc[e.gid * 2 + 1]'(by omega)) := by
          unfold vget; rw [List.getElem?_eq_getElem (by omega)]
        exact ⟨none, OnEva.push { e with gid := e.gid + 1 } (evalGate E (e.get E i) (e.get E j) (e.gc[e.gid * 2]'(by omega), e.gc[e.gid * 2 + 1]'(by omega)) e.gid), q, [], by simp only [OnEva.alone, OnEva.step, v1, v2, bind, Except.bind], by simpa [gets] using h3, rfl, rfl, rfl, rfl⟩
      | reveal p ws =>
        cases p with
        | alice =>
          obtain ⟨bs, s, er⟩ := evaReveal_alice_any e.pubValues e.revealCounter q (ws.map (e.get E))
          exact ⟨some bs, { e with revealCounter := e.revealCounter }, q, _, by simp only [OnEva.alone, OnEva.step, er, bind, Except.bind]; rfl, by simpa [gets] using h3, rfl, rfl, rfl, rfl⟩
        | bob =>
          obtain ⟨bs, q', er, hk⟩ := evaReveal_bob_any e.pubValues e.revealCounter (ws.map (e.get E)) q (ops.flatMap gets ++ ks) (by simpa [gets] using h3)
          exact ⟨some bs, { e with revealCounter := e.revealCounter }, q', _, by simp only [OnEva.alone, OnEva.step, er, bind, Except.bind]; rfl, hk, rfl, rfl, rfl, rfl⟩
        | pub =>
          obtain ⟨bs, er⟩ := evaReveal_pub_any e.pubValues (ws.map (e.get E)) e.revealCounter q (by simp only [pubBits] at h2; simp; omega)
          exact ⟨some bs, { e with revealCounter := e.revealCounter + (ws.map (e.get E)).length }, q, _, by simp only [OnEva.alone, OnEva.step, er, bind, Except.bind]; rfl, by simpa [gets] using h3, rfl, rfl, rfl, by simp [pubBits]⟩
    obtain ⟨o, e1, q1, s1, r1, k1, g1, p1, i1, c1⟩ := one
    obtain ⟨os, e2, q2, s2, r2, k2⟩ := ih e1 q1 ks (by rw [g1, i1]; omega) (by rw [p1, c1]; omega) k1
    exact ⟨o.toList ++ os, e2, q2, s1 ++ s2, by simp only [OnEva.run, r1, r2, bind, Except.bind], k2⟩

/-- The hypotheses are met: a program with an input of each party, a gate and openings to both and to BOB, and any blocks at all. -/
example (E : Env) (t0 t1 x y : Block) (m c : Bool) :
    ∃ os e' q' s, OnEva.run E { gc := [t0, t1], pubValues := [m] } [.inA true, .inB c, .and 0 1, .reveal .pub [2], .reveal .bob [0]]
      [.blk x, .blk y, .bit c] = .ok (os, e', q', s) ∧ q'.map kind = [] :=
  C80_no_check E _ _ _ [] (by simp [gates]) (by simp [pubBits]) rfl

/-- And of `C80_run`: OR in the even gates, the first operand AND NOT the second in the odd ones. -/
example (E : Env) (d : Block) (a b c : Bool) :
    ∃ t F os n', OffNet.runAs E t { gen := { delta := setDelta d } } [.inA false, .inB false, .inB false, .and 0 1, .and 3 2, .reveal .pub [4]] = .ok F
      ∧ (syncOnline F).run E [.inA a, .inB b, .inB c, .and 0 1, .and 3 2, .reveal .pub [4]] = .ok (os, n')
      ∧ List.Forall₂ RevealOk os [(.pub, [(a || b) && !c])] := by
  obtain ⟨t, F, os, n', h1, h2, h3, -⟩ := C80_run E d (fun k a b => if k % 2 = 0 then a || b else a && !b) (by intro k; by_cases h : k % 2 = 0 <;> simp [h])
    [.inA false, .inB false, .inB false, .and 0 1, .and 3 2, .reveal .pub [4]] [.inA a, .inB b, .inB c, .and 0 1, .and 3 2, .reveal .pub [4]] (by repeat' constructor)
  refine ⟨t, F, os, n', h1, h2, ?_⟩
  simpa [openedAs, newWireAs, Circuit.newWire, Circuit.get, gates] using h3

end Verif.Props.GarblerCheat
