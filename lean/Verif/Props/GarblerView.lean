import Verif.Model.GCParty
import Verif.Props.OfflineGC
import Verif.Props.Direct

/-!
What the garbler learns (C54).  The garbler sees its own inputs, its own randomness and the messages of the evaluator.  These messages can be
made up from the values opened to it and random bits: nothing else about the inputs of BOB is in them.
-/

namespace Verif.Props.GarblerView
open Verif.Model Verif.Model.GC Verif.Lemmas
open Verif.Spec.Circuit (Party Op)
open Verif.Spec
open Verif.Props (NetInv Clean NoCoincidence net_step)
open Verif.Props.Direct (start start_inv)

/-! ### The parties apart and together -/

/-- The output of one operation, put together from those of the two parties. -/
def join : Option (Party × List Bool) → Option (List Bool) → Option (Party × List Bool × List Bool)
  | some (p, a), some b => some (p, a, b)
  | _, _ => none

/-- An operation of the joint run is: the garbler sends, the evaluator works, the garbler receives. -/
theorem step_parties (E : Env) (n : Net) (op : Op) : n.step E op = (do
    let (eb, e, q, s) ← n.eva.step E (cotM E n.gen.delta) E.cotR op (n.toEva ++ (n.gen.send E op).2)
    let (gb, g, q') ← (n.gen.send E op).1.recv E op (n.toGen ++ s)
    .ok (join gb eb, ⟨g, e, q, q'⟩)) := by
  cases op with
  | pub b => simp [Net.step, Eva.step, Gen.send, Gen.recv, bind, Except.bind, join]
  | inA b => simp [Net.step, Eva.step, Gen.send, Gen.recv, bind, Except.bind, join]
  | inB b =>
    simp only [Net.step, Eva.step, Gen.send, Gen.recv, bind, Except.bind, List.append_nil, cotM]
    cases recvBit (n.toGen ++ [Msg.bit (E.cotR n.eva.cotPos != b)]) <;> rfl
  | and i j =>
    simp only [Net.step, Eva.step, Gen.send, Gen.recv, bind, Except.bind]
    cases evaAnd E n.eva (n.eva.get i) (n.eva.get j) (n.toEva ++ (genAnd E n.gen (n.gen.get i) (n.gen.get j)).2.2) <;> simp [join]
  | xor i j => simp [Net.step, Eva.step, Gen.send, Gen.recv, bind, Except.bind, join]
  | not i => simp [Net.step, Eva.step, Gen.send, Gen.recv, bind, Except.bind, join]
  | reveal p ws =>
    simp only [Net.step, Eva.step, Gen.send, Gen.recv, bind, Except.bind]
    cases evaRevealLoop p (ws.map n.eva.get) (n.toEva ++ genRevealSend p (ws.map n.gen.get)) with
    | error x => rfl
    | ok x =>
      simp only [List.append_assoc]
      cases genRevealLoop p (ws.map n.gen.get) (n.toGen ++ (x.2.2 ++ if p = .pub then [Msg.bits x.1, Msg.dig (E.hash (ws.map n.eva.get))] else [])) with
      | error y => rfl
      | ok y =>
        simp only
        cases (if p = .pub then genPublicCheck E n.gen.delta (ws.map n.gen.get) y.2 else Except.ok (y.1, y.2)) <;> rfl

theorem recvBit_frame {q q' : List Msg} {b : Bool} (h : recvBit q = .ok (b, q')) (r : List Msg) : recvBit (q ++ r) = .ok (b, q' ++ r) := by
  unfold recvBit at h
  split at h
  · cases h; rfl
  · cases h

theorem genRevealLoop_frame (p : Party) (ls : List Block) : ∀ {q q' : List Msg} {b : List Bool}, genRevealLoop p ls q = .ok (b, q') →
    ∀ r, genRevealLoop p ls (q ++ r) = .ok (b, q' ++ r) := by
  induction ls with
  | nil => intro q q' b h r; cases h; rfl
  | cons l ls ih =>
    intro q q' b h r
    simp only [genRevealLoop, bind, Except.bind] at h ⊢
    split
    · rename_i h1
      rw [if_pos h1] at h
      cases hx : genRevealLoop p ls q with
      | error x => rw [hx] at h; cases h
      | ok x => rw [hx] at h; cases h; rw [ih hx]
    · rename_i h1
      rw [if_neg h1] at h
      split
      · rename_i h2
        rw [if_pos h2] at h
        cases hx : genRevealLoop p ls q with
        | error x => rw [hx] at h; cases h
        | ok x => rw [hx] at h; cases h; rw [ih hx]
      · rename_i h2
        rw [if_neg h2] at h
        split
        · rename_i h3
          rw [if_pos h3] at h
          cases hb : recvBit q with
          | error x => rw [hb] at h; cases h
          | ok x =>
            rw [hb] at h
            rw [recvBit_frame hb]
            simp only at h ⊢
            cases hx : genRevealLoop p ls x.2 with
            | error y => rw [hx] at h; cases h
            | ok y => rw [hx] at h; cases h; rw [ih hx]
        · rename_i h3
          rw [if_neg h3] at h
          cases hx : genRevealLoop p ls q with
          | error x => rw [hx] at h; cases h
          | ok x => rw [hx] at h; cases h; rw [ih hx]

theorem genPublicCheck_frame {E : Env} {d : Block} {ls : List Block} {q q' : List Msg} {b : List Bool}
    (h : genPublicCheck E d ls q = .ok (b, q')) (r : List Msg) : genPublicCheck E d ls (q ++ r) = .ok (b, q' ++ r) := by
  match q, h with
  | .bits x :: .dig y :: q, h =>
    simp only [genPublicCheck, recvBits, recvDig, bind, Except.bind, List.cons_append] at h ⊢
    split at h
    · cases h
    · rename_i h1
      simp only [h1]
      split at h
      · cases h
      · rename_i h2
        simp only [h2]
        cases h
        rfl
  | [], h => cases h
  | .bit _ :: _, h => cases h
  | .blk _ :: _, h => cases h
  | .dig _ :: _, h => cases h
  | [.bits x], h =>
    simp only [genPublicCheck, recvBits, recvDig, bind, Except.bind] at h
    split at h <;> cases h
  | .bits x :: .bit _ :: _, h =>
    simp only [genPublicCheck, recvBits, recvDig, bind, Except.bind] at h
    split at h <;> cases h
  | .bits x :: .bits _ :: _, h =>
    simp only [genPublicCheck, recvBits, recvDig, bind, Except.bind] at h
    split at h <;> cases h
  | .bits x :: .blk _ :: _, h =>
    simp only [genPublicCheck, recvBits, recvDig, bind, Except.bind] at h
    split at h <;> cases h

/-- What the garbler does depends on the messages it reads and not on those that follow. -/
theorem recv_frame (E : Env) (g : Gen) (op : Op) {q q' : List Msg} {o : Option (Party × List Bool)} {g' : Gen}
    (h : g.recv E op q = .ok (o, g', q')) (r : List Msg) : g.recv E op (q ++ r) = .ok (o, g', q' ++ r) := by
  cases op with
  | inB b =>
    simp only [Gen.recv, bind, Except.bind] at h ⊢
    cases hb : recvBit q with
    | error x => rw [hb] at h; cases h
    | ok x => rw [hb] at h; rw [recvBit_frame hb]; cases h; rfl
  | reveal p ws =>
    simp only [Gen.recv, bind, Except.bind] at h ⊢
    cases hb : genRevealLoop p (ws.map g.get) q with
    | error x => rw [hb] at h; cases h
    | ok x =>
      rw [hb] at h
      rw [genRevealLoop_frame _ _ hb]
      simp only at h ⊢
      by_cases hp : p = .pub
      · rw [if_pos hp] at h ⊢
        cases hc : genPublicCheck E g.delta (ws.map g.get) x.2 with
        | error y => rw [hc] at h; cases h
        | ok y => rw [hc] at h; rw [genPublicCheck_frame hc]; cases h; rfl
      · rw [if_neg hp] at h ⊢
        cases h; rfl
  | _ => cases h; rfl

/-- The outputs of the garbler. -/
def mine (os : List (Party × List Bool × List Bool)) : List (Party × List Bool) := os.map fun o => (o.1, o.2.1)

/-- **C54, the parties.**  A joint run that succeeds can be recorded; the garbler alone, reading the recorded messages and nothing else, has
the same outputs and ends in the same state. -/
theorem C54_parties (E : Env) (ops : List Op) : ∀ (n n' : Net) (os : List (Party × List Bool × List Bool)), n.run E ops = .ok (os, n') →
    ∃ l, n.record E ops = .ok (l, n') ∧ n.gen.run E ops (n.toGen ++ l) = .ok (mine os, n'.gen, n'.toGen) := by
  induction ops with
  | nil => intro n n' os h; cases h; exact ⟨[], rfl, by simp [Gen.run, mine]⟩
  | cons op ops ih =>
    intro n n' os h
    simp only [Net.run, step_parties, bind, Except.bind] at h
    simp only [Net.record, bind, Except.bind]
    cases h1 : n.eva.step E (cotM E n.gen.delta) E.cotR op (n.toEva ++ (n.gen.send E op).2) with
    | error x => rw [h1] at h; cases h
    | ok x =>
      obtain ⟨eb, e, q, s⟩ := x
      rw [h1] at h
      simp only at h ⊢
      cases h2 : (n.gen.send E op).1.recv E op (n.toGen ++ s) with
      | error x => rw [h2] at h; cases h
      | ok x =>
        obtain ⟨gb, g, q'⟩ := x
        rw [h2] at h
        simp only at h ⊢
        cases h3 : Net.run E ⟨g, e, q, q'⟩ ops with
        | error x => rw [h3] at h; cases h
        | ok x =>
          obtain ⟨os', m⟩ := x
          rw [h3] at h
          cases h
          obtain ⟨l, e1, e2⟩ := ih _ _ _ h3
          rw [e1]
          refine ⟨s ++ l, rfl, ?_⟩
          simp only [Gen.run, bind, Except.bind]
          rw [← List.append_assoc, recv_frame E _ op h2 l]
          simp only
          simp only at e2
          rw [e2]
          simp only [mine, List.map_append]
          congr 3
          have hj : ∀ o', (join gb eb).toList.map (fun o => (o.1, o.2.1)) = o' → gb.toList = o' := by
            intro o' ho
            rw [← ho]
            cases op with
            | reveal p ws =>
              simp only [Eva.step, bind, Except.bind] at h1
              simp only [Gen.recv, bind, Except.bind] at h2
              split at h1
              · cases h1
              · cases h1
                split at h2
                · cases h2
                · split at h2
                  · cases h2
                  · cases h2; rfl
            | inB b =>
              simp only [Gen.recv, bind, Except.bind] at h2
              split at h2
              · cases h2
              · cases h2; rfl
            | pub b => cases h2; rfl
            | inA b => cases h2; rfl
            | and i j => cases h2; rfl
            | xor i j => cases h2; rfl
            | not i => cases h2; rfl
          exact hj _ rfl

/-! ### The simulator -/

/-- An operation without the input of BOB. -/
def blind : Op → Op
  | .inB _ => .inB false
  | op => op

/-- The values opened to ALICE or to both. -/
def toAlice (l : List (Party × List Bool)) : List (List Bool) := (l.filter fun o => o.1 ≠ .bob).map (·.2)

/-- The inputs of BOB. -/
def bobInputs : List Op → List Bool
  | [] => []
  | .inB b :: ops => b :: bobInputs ops
  | _ :: ops => bobInputs ops

/-- The inputs of BOB, masked with the bits of `r` from position `k` on. -/
def masked (r : Nat → Bool) : Nat → List Bool → List Bool
  | _, [] => []
  | k, b :: bs => (r k != b) :: masked r (k + 1) bs

/-- The answers to an opening for ALICE: one bit for every label that is not that of a constant. -/
def answers : List Block → List Bool → List Msg
  | l :: ls, v :: vs => if isPublic l then answers ls vs else .bit (lsb l != v) :: answers ls vs
  | _, _ => []

/-- Messages made up from the program of the garbler, its state, the values `vs` opened to it and the bits `ms`. -/
def simulate (E : Env) : Gen → List Op → List (List Bool) → List Bool → List Msg
  | _, [], _, _ => []
  | g, .inB _ :: ops, vs, m :: ms =>
    .bit m :: simulate E (Gen.push { g with cotPos := g.cotPos + 1 } (E.cotK g.cotPos ^^^ sel m g.delta)) ops vs ms
  | g, .reveal .bob _ :: ops, vs, ms => simulate E g ops vs ms
  | g, .reveal .alice ws :: ops, v :: vs, ms => answers (ws.map g.get) v ++ simulate E g ops vs ms
  | g, .reveal .pub ws :: ops, v :: vs, ms =>
    .bits v :: .dig (E.hash (genOpenBlocks g.delta (ws.map g.get) v)) :: simulate E g ops vs ms
  | g, op :: ops, vs, ms => simulate E (g.send E op).1 ops vs ms

theorem evaRevealLoop_sent (p : Party) (delta : Block) (hd : lsb delta = true) : ∀ (gl el : List Block) (vs : List Bool) (q : List Msg) eb q' s,
    gl.length = el.length → gl.length = vs.length →
    (∀ i (h : i < gl.length) (h2 : i < el.length) (h3 : i < vs.length), WRel delta gl[i] el[i] vs[i]) →
    evaRevealLoop p el q = .ok (eb, q', s) → s = if p = .alice then answers gl vs else [] := by
  intro gl
  induction gl with
  | nil =>
    intro el vs q eb q' s h1 h2 _ e
    have : el = [] := List.length_eq_zero_iff.1 h1.symm
    subst this
    cases e
    split <;> rfl
  | cons g gl ih =>
    intro el vs q eb q' s h1 h2 h e
    cases el with
    | nil => simp at h1
    | cons l el =>
    cases vs with
    | nil => simp at h2
    | cons v vs =>
    have hw := h 0 (by simp) (by simp) (by simp)
    simp only [List.getElem_cons_zero] at hw
    have hrest : ∀ i (h : i < gl.length) (h2 : i < el.length) (h3 : i < vs.length), WRel delta gl[i] el[i] vs[i] := by
      intro i a b c
      have := h (i + 1) (by simpa using a) (by simpa using b) (by simpa using c)
      simpa using this
    simp only [List.length_cons, Nat.add_right_cancel_iff] at h1 h2
    have hrec : ∀ {f : List Bool → List Bool} {t : List Msg → List Msg} {q0 : List Msg},
        (match evaRevealLoop p el q0 with | .ok (bs, q, s) => Except.ok (f bs, q, t s) | .error x => .error x) = .ok (eb, q', s) →
        s = t (if p = .alice then answers gl vs else []) := by
      intro f t q0 e
      cases hx : evaRevealLoop p el q0 with
      | error x => rw [hx] at e; cases e
      | ok x =>
        obtain ⟨a, b, c⟩ := x
        rw [hx] at e
        cases e
        rw [ih _ _ _ _ _ _ h1 h2 hrest hx]
    simp only [evaRevealLoop, bind, Except.bind] at e
    rcases hw with ⟨rfl, rfl⟩ | ⟨k1, k2, k3⟩
    · have hp : isPublic (publicLabel v) = true := by cases v <;> decide
      simp only [answers, hp, if_true]
      cases v with
      | true =>
        rw [if_pos (by decide)] at e
        refine hrec (f := fun bs => true :: bs) (t := id) (q0 := q) ?_
        rw [← e]
        cases evaRevealLoop p el q <;> rfl
      | false =>
        rw [if_neg (by decide), if_pos (by decide)] at e
        refine hrec (f := fun bs => false :: bs) (t := id) (q0 := q) ?_
        rw [← e]
        cases evaRevealLoop p el q <;> rfl
    · obtain ⟨b1, b2⟩ := isPublic_false k2
      have hbit : lsb l = (lsb g != v) := by rw [k3, lsb_xor, lsb_sel _ _ hd]
      simp only [answers, k1, Bool.false_eq_true, if_false]
      rw [if_neg (by simp [b2]), if_neg (by simp [b1])] at e
      by_cases hp : p = .alice
      · rw [if_pos hp] at e ⊢
        have := hrec (f := fun bs => false :: bs) (t := fun s => .bit (lsb l) :: s) (q0 := q) (by
          rw [← e]; cases evaRevealLoop p el q <;> rfl)
        rw [this, if_pos hp, hbit]
      · rw [if_neg hp] at e ⊢
        cases hb : recvBit q with
        | error x => rw [hb] at e; cases e
        | ok x =>
          rw [hb] at e
          dsimp only at e
          have := hrec (f := fun bs => (x.1 != lsb l) :: bs) (t := id) (q0 := x.2) (by
            rw [← e]; cases evaRevealLoop p el x.2 <;> rfl)
          rw [this, if_neg hp]; rfl

/-- The random choice bits of the evaluator are not known to the garbler. -/
def forget (E : Env) : Env := { E with cotR := fun _ => false }

theorem simulation (E : Env) (ops : List Op) : ∀ (n : Net) (w : List Bool), NetInv n w → NoCoincidence E n ops →
    ∃ n', n.record E ops = .ok (simulate (forget E) n.gen (ops.map blind) (toAlice (Circuit.opened w ops))
      (masked E.cotR n.gen.cotPos (bobInputs ops)), n') := by
  induction ops with
  | nil => intro n w h _; exact ⟨n, rfl⟩
  | cons op ops ih =>
    intro n w h hc
    obtain ⟨o, n1, e1, h1, _⟩ := net_step E n w op h hc.1
    have hc' := hc.2 o n1 e1
    obtain ⟨n', hr⟩ := ih n1 _ h1 hc'
    rw [step_parties] at e1
    simp only [bind, Except.bind] at e1
    simp only [Net.record, bind, Except.bind]
    cases s1 : n.eva.step E (cotM E n.gen.delta) E.cotR op (n.toEva ++ (n.gen.send E op).2) with
    | error x => rw [s1] at e1; cases e1
    | ok x =>
      obtain ⟨eb, e, q, s⟩ := x
      rw [s1] at e1
      simp only at e1 ⊢
      cases s2 : (n.gen.send E op).1.recv E op (n.toGen ++ s) with
      | error x => rw [s2] at e1; cases e1
      | ok x =>
        obtain ⟨gb, g, q'⟩ := x
        rw [s2] at e1
        cases e1
        simp only at hr ⊢
        rw [hr]
        refine ⟨n', ?_⟩
        simp only
        congr 2
        rw [h.toGen] at s2
        cases op with
        | pub b => cases s1; cases s2; rfl
        | inA b => cases s1; cases s2; rfl
        | xor i j => cases s1; cases s2; rfl
        | not i => cases s1; cases s2; rfl
        | and i j =>
          cases s2
          simp only [Eva.step, bind, Except.bind] at s1
          split at s1
          · cases s1
          · cases s1
            have hcot : (n.gen.send E (.and i j)).1.cotPos = n.gen.cotPos := by
              simp only [Gen.send, Gen.push, genAnd]
              split
              · rfl
              · split
                · rfl
                · split <;> rfl
            rw [hcot]
            rfl
        | inB b =>
          cases s1
          simp only [Gen.recv, List.nil_append, recvBit, bind, Except.bind] at s2
          cases s2
          simp only [List.map_cons, blind, bobInputs, masked, simulate, h.cot, List.singleton_append, Gen.send, sel_if]
          rfl
        | reveal p ws =>
          have hnext : Circuit.next w (.reveal p ws) = w := by simp [Circuit.next, Circuit.newWire]
          have hg : g = n.gen := by
            simp only [Gen.recv, bind, Except.bind] at s2
            split at s2
            · cases s2
            · split at s2 <;> cases s2; rfl
          subst hg
          have hrel : ∀ i (h1 : i < (ws.map n.gen.get).length) (h2 : i < (ws.map n.eva.get).length)
              (h3 : i < (ws.map (Circuit.get w)).length),
              WRel n.gen.delta (ws.map n.gen.get)[i] (ws.map n.eva.get)[i] (ws.map (Circuit.get w))[i] := by
            intro i h1 h2 h3
            simp only [List.getElem_map]
            exact h.rel _
          have hopen := genOpenBlocks_spec n.gen.delta (ws.map n.gen.get) (ws.map n.eva.get)
            (ws.map (Circuit.get w)) (by simp) (by simp) hrel
          obtain ⟨eb', s', e1, e2, _, _⟩ := evaRevealLoop_spec p n.gen.delta h.delta (ws.map n.gen.get) (ws.map n.eva.get)
            (ws.map (Circuit.get w)) [] (by simp) (by simp) hrel
          rw [List.append_nil] at e1
          have hs := evaRevealLoop_sent p n.gen.delta h.delta (ws.map n.gen.get) (ws.map n.eva.get)
            (ws.map (Circuit.get w)) _ _ _ _ (by simp) (by simp) hrel e1
          simp only [Eva.step, Gen.send, h.toEva, List.nil_append, e1, bind, Except.bind] at s1
          cases s1
          rw [hnext, hs]
          cases p with
          | alice => simp only [List.map_cons, blind, bobInputs, Circuit.opened, toAlice, simulate, if_true, reduceCtorEq, if_false, List.append_nil,
              ne_eq, not_false_eq_true, decide_true, List.filter_cons_of_pos]
          | bob => simp [List.map_cons, blind, bobInputs, Circuit.opened, toAlice, simulate]
          | pub =>
            have := e2 (by simp)
            subst this
            simp [List.map_cons, blind, bobInputs, Circuit.opened, toAlice, simulate, hopen, forget]

/-- **C54.**  For every program, all inputs and all environments without coincidences: the messages the garbler receives are computed by `simulate`
from its own program, the values opened to it (to ALICE or to both) and the inputs of BOB, each masked with a random choice bit of a
correlated OT that the garbler does not know and that is used for nothing else. -/
theorem C54_simulation (E : Env) (d : Block) (ops : List Op) (hc : NoCoincidence E (start d) ops) :
    ∃ n', (start d).record E ops = .ok (simulate (forget E) { delta := setDelta d } (ops.map blind) (toAlice (Circuit.opened [] ops))
      (masked E.cotR 0 (bobInputs ops)), n') := simulation E ops _ [] (start_inv d) hc

/-- Other choice bits: those of `E`, changed where the two lists differ. -/
def shift (r : Nat → Bool) (bs bs' : List Bool) (i : Nat) : Bool := r i ^^ (bs.getD i false ^^ bs'.getD i false)

theorem masked_congr {r r' : Nat → Bool} : ∀ (bs bs' : List Bool) (k : Nat), bs.length = bs'.length →
    (∀ i, (r (k + i) ^^ bs.getD i false) = (r' (k + i) ^^ bs'.getD i false)) → masked r k bs = masked r' k bs' := by
  intro bs
  induction bs with
  | nil => intro bs' k hl _; rw [List.length_eq_zero_iff.1 hl.symm]; rfl
  | cons b bs ih =>
    intro bs' k hl h
    cases bs' with
    | nil => simp at hl
    | cons b' bs' =>
      simp only [masked]
      have h0 := h 0
      simp only [List.getD_cons_zero, Nat.add_zero] at h0
      rw [ih bs' (k + 1) (by simpa using hl) fun i => ?_]
      · congr 1
      · have := h (i + 1)
        simp only [List.getD_cons_succ] at this
        rwa [show k + 1 + i = k + (i + 1) by omega]

theorem bobInputs_length {ops ops' : List Op} (h : ops.map blind = ops'.map blind) : (bobInputs ops).length = (bobInputs ops').length := by
  have key : ∀ ops, (bobInputs (ops.map blind)).length = (bobInputs ops).length := by
    intro ops
    induction ops with
    | nil => rfl
    | cons op ops ih => cases op <;> simp [bobInputs, blind, ih]
  rw [← key ops, ← key ops', h]

/-- **C54, privacy of BOB.**  Two programs that differ only in the inputs of BOB and open the same values to ALICE look the same to the
garbler: whatever it receives in a run of the one, it receives in the run of the other with other choice bits.  The change of choice bits is its own
inverse, so for uniform choice bits the messages have the same distribution. -/
theorem C54_private (ops ops' : List Op) (hb : ops.map blind = ops'.map blind)
    (ho : toAlice (Circuit.opened [] ops) = toAlice (Circuit.opened [] ops')) (E : Env) (d : Block) (hc : NoCoincidence E (start d) ops)
    (hc' : NoCoincidence { E with cotR := shift E.cotR (bobInputs ops) (bobInputs ops') } (start d) ops') :
    ∃ l n n', (start d).record E ops = .ok (l, n)
      ∧ (start d).record { E with cotR := shift E.cotR (bobInputs ops) (bobInputs ops') } ops' = .ok (l, n') := by
  obtain ⟨n, h⟩ := C54_simulation E d ops hc
  obtain ⟨n', h'⟩ := C54_simulation _ d ops' hc'
  refine ⟨_, n, n', h, ?_⟩
  rw [h', hb, ho, masked_congr (bobInputs ops) (bobInputs ops') 0 (bobInputs_length hb) (r' := shift E.cotR (bobInputs ops) (bobInputs ops'))]
  · rfl
  · intro i
    simp only [shift, Nat.zero_add]
    cases E.cotR i <;> cases (bobInputs ops).getD i false <;> cases (bobInputs ops').getD i false <;> rfl

/-- The change of choice bits is its own inverse. -/
theorem C54_shift_involution (r : Nat → Bool) (bs bs' : List Bool) : shift (shift r bs bs') bs bs' = r := by
  funext i
  simp only [shift]
  cases r i <;> cases bs.getD i false <;> cases bs'.getD i false <;> rfl

/-! ### Offline/online backend -/

theorem step_parties_on (E : Env) (n : OnNet) (op : Op) : n.step E op = (do
    let (g, m) ← n.gen.send E op
    let (eb, e, q, s) ← n.eva.step E (E.prg n.gen.prgPos, E.prg n.gen.prgPos ^^^ n.gen.delta) op (n.toEva ++ m)
    let (gb, g, q') ← g.recv E op (n.toGen ++ s)
    .ok (join gb eb, ⟨g, e, q, q'⟩)) := by
  cases op with
  | pub b => simp [OnNet.step, OnEva.step, OnGen.send, OnGen.recv, bind, Except.bind, join]
  | inA b =>
    simp only [OnNet.step, OnEva.step, OnGen.send, OnGen.recv, bind, Except.bind]
    cases recvBlk (n.toEva ++ [Msg.blk (if b = true then E.prg n.gen.prgPos ^^^ n.gen.delta else E.prg n.gen.prgPos)]) <;> simp [join]
  | inB b => simp [OnNet.step, OnEva.step, OnGen.send, OnGen.recv, bind, Except.bind, join]
  | and i j =>
    simp only [OnNet.step, OnEva.step, OnGen.send, OnGen.recv, bind, Except.bind]
    cases vget n.gen.outLabels n.gen.gid with
    | error x => rfl
    | ok x =>
      simp only
      cases vget n.eva.gc (n.eva.gid * 2) with
      | error x => rfl
      | ok x =>
        simp only
        cases vget n.eva.gc (n.eva.gid * 2 + 1) <;> simp [join]
  | xor i j => simp [OnNet.step, OnEva.step, OnGen.send, OnGen.recv, bind, Except.bind, join]
  | not i => simp [OnNet.step, OnEva.step, OnGen.send, OnGen.recv, bind, Except.bind, join]
  | reveal p ws =>
    simp only [OnNet.step, OnEva.step, OnGen.send, OnGen.recv, bind, Except.bind]
    cases onEvaReveal p n.eva.pubValues n.eva.revealCounter (ws.map (n.eva.get E))
      (n.toEva ++ if p = .bob then (ws.map (n.gen.get E)).map fun l => Msg.bit (lsb l) else []) with
    | error x => rfl
    | ok x =>
      simp only [List.append_assoc]
      cases onGenReveal p (ws.map (n.gen.get E)) (n.toGen ++ (x.2.2.2 ++ if p = .pub then [Msg.bits x.1, Msg.dig (E.hash (ws.map (n.eva.get E)))] else [])) with
      | error y => rfl
      | ok y =>
        simp only
        cases (if p = .pub then onPublicCheck E n.gen.delta (ws.map (n.gen.get E)) y.2 else Except.ok (y.1, y.2)) <;> rfl

theorem onGenReveal_frame (p : Party) (ls : List Block) : ∀ {q q' : List Msg} {b : List Bool}, onGenReveal p ls q = .ok (b, q') →
    ∀ r, onGenReveal p ls (q ++ r) = .ok (b, q' ++ r) := by
  induction ls with
  | nil => intro q q' b h r; cases h; rfl
  | cons l ls ih =>
    intro q q' b h r
    cases p with
    | alice =>
      simp only [onGenReveal, bind, Except.bind] at h ⊢
      cases hb : recvBit q with
      | error x => rw [hb] at h; cases h
      | ok x =>
        rw [hb] at h
        rw [recvBit_frame hb]
        simp only at h ⊢
        cases hx : onGenReveal .alice ls x.2 with
        | error y => rw [hx] at h; cases h
        | ok y => rw [hx] at h; cases h; rw [ih hx]
    | bob =>
      simp only [onGenReveal, bind, Except.bind] at h ⊢
      cases hx : onGenReveal .bob ls q with
      | error x => rw [hx] at h; cases h
      | ok x => rw [hx] at h; cases h; rw [ih hx]
    | pub =>
      simp only [onGenReveal, bind, Except.bind] at h ⊢
      cases hx : onGenReveal .pub ls q with
      | error x => rw [hx] at h; cases h
      | ok x => rw [hx] at h; cases h; rw [ih hx]

theorem onPublicCheck_frame {E : Env} {d : Block} {ls : List Block} {q q' : List Msg} {b : List Bool}
    (h : onPublicCheck E d ls q = .ok (b, q')) (r : List Msg) : onPublicCheck E d ls (q ++ r) = .ok (b, q' ++ r) := by
  match q, h with
  | .bits x :: .dig y :: q, h =>
    simp only [onPublicCheck, recvBits, recvDig, bind, Except.bind, List.cons_append] at h ⊢
    split at h
    · cases h
    · rename_i h1
      simp only [h1]
      split at h
      · cases h
      · rename_i h2
        simp only [h2]
        cases h
        rfl
  | [], h => cases h
  | .bit _ :: _, h => cases h
  | .blk _ :: _, h => cases h
  | .dig _ :: _, h => cases h
  | [.bits x], h =>
    simp only [onPublicCheck, recvBits, recvDig, bind, Except.bind] at h
    split at h <;> cases h
  | .bits x :: .bit _ :: _, h =>
    simp only [onPublicCheck, recvBits, recvDig, bind, Except.bind] at h
    split at h <;> cases h
  | .bits x :: .bits _ :: _, h =>
    simp only [onPublicCheck, recvBits, recvDig, bind, Except.bind] at h
    split at h <;> cases h
  | .bits x :: .blk _ :: _, h =>
    simp only [onPublicCheck, recvBits, recvDig, bind, Except.bind] at h
    split at h <;> cases h

theorem recv_frame_on (E : Env) (g : OnGen) (op : Op) {q q' : List Msg} {o : Option (Party × List Bool)} {g' : OnGen}
    (h : g.recv E op q = .ok (o, g', q')) (r : List Msg) : g.recv E op (q ++ r) = .ok (o, g', q' ++ r) := by
  cases op with
  | reveal p ws =>
    simp only [OnGen.recv, bind, Except.bind] at h ⊢
    cases hb : onGenReveal p (ws.map (g.get E)) q with
    | error x => rw [hb] at h; cases h
    | ok x =>
      rw [hb] at h
      rw [onGenReveal_frame _ _ hb]
      simp only at h ⊢
      by_cases hp : p = .pub
      · rw [if_pos hp] at h ⊢
        cases hc : onPublicCheck E g.delta (ws.map (g.get E)) x.2 with
        | error y => rw [hc] at h; cases h
        | ok y => rw [hc] at h; rw [onPublicCheck_frame hc]; cases h; rfl
      · rw [if_neg hp] at h ⊢
        cases h; rfl
  | _ => cases h; rfl

/-- **C54, the parties of the online phase.**  As `C54_parties`. -/
theorem C54_parties_online (E : Env) (ops : List Op) : ∀ (n n' : OnNet) (os : List (Party × List Bool × List Bool)), n.run E ops = .ok (os, n') →
    ∃ l, n.record E ops = .ok (l, n') ∧ n.gen.run E ops (n.toGen ++ l) = .ok (mine os, n'.gen, n'.toGen) := by
  induction ops with
  | nil => intro n n' os h; cases h; exact ⟨[], rfl, by simp [OnGen.run, mine]⟩
  | cons op ops ih =>
    intro n n' os h
    simp only [OnNet.run, step_parties_on, bind, Except.bind] at h
    simp only [OnNet.record, bind, Except.bind]
    cases h0 : n.gen.send E op with
    | error x => rw [h0] at h; cases h
    | ok x =>
    obtain ⟨g0, m0⟩ := x
    rw [h0] at h
    simp only at h ⊢
    cases h1 : n.eva.step E (E.prg n.gen.prgPos, E.prg n.gen.prgPos ^^^ n.gen.delta) op (n.toEva ++ m0) with
    | error x => rw [h1] at h; cases h
    | ok x =>
    obtain ⟨eb, e, q, s⟩ := x
    rw [h1] at h
    simp only at h ⊢
    cases h2 : g0.recv E op (n.toGen ++ s) with
    | error x => rw [h2] at h; cases h
    | ok x =>
    obtain ⟨gb, g, q'⟩ := x
    rw [h2] at h
    simp only at h ⊢
    cases h3 : OnNet.run E ⟨g, e, q, q'⟩ ops with
    | error x => rw [h3] at h; cases h
    | ok x =>
    obtain ⟨os', m⟩ := x
    rw [h3] at h
    cases h
    obtain ⟨l, e1, e2⟩ := ih _ _ _ h3
    rw [e1]
    refine ⟨s ++ l, rfl, ?_⟩
    simp only [OnGen.run, bind, Except.bind, h0]
    rw [← List.append_assoc, recv_frame_on E _ op h2 l]
    simp only
    simp only at e2
    rw [e2]
    simp only [mine, List.map_append]
    congr 3
    cases op with
    | reveal p ws =>
      simp only [OnEva.step, bind, Except.bind] at h1
      simp only [OnGen.recv, bind, Except.bind] at h2
      split at h1
      · cases h1
      · cases h1
        split at h2
        · cases h2
        · split at h2
          · cases h2
          · cases h2; rfl
    | inB b => cases h2; rfl
    | pub b => cases h2; rfl
    | inA b => cases h2; rfl
    | and i j => cases h2; rfl
    | xor i j => cases h2; rfl
    | not i => cases h2; rfl

/-- The messages of an evaluator in the online phase, made up from the program and the state of the garbler and the values opened to it.
There are no random bits: the inputs of BOB go into the oblivious transfer only. -/
def simulateOn (E : Env) : OnGen → List Op → List (List Bool) → List Msg
  | _, [], _ => []
  | g, .reveal .bob _ :: ops, vs => simulateOn E g ops vs
  | g, .reveal .alice ws :: ops, v :: vs => List.zipWith (fun l b => .bit (lsb l != b)) (ws.map (g.get E)) v ++ simulateOn E g ops vs
  | g, .reveal .pub ws :: ops, v :: vs =>
    .bits v :: .dig (E.hash (List.zipWith (fun l b => if b then l ^^^ g.delta else l) (ws.map (g.get E)) v)) :: simulateOn E g ops vs
  | g, op :: ops, vs => match g.send E op with
    | .ok (g, _) => simulateOn E g ops vs
    | .error _ => []

theorem simulation_on (E : Env) (f : OffNet) (ops : List Op) : ∀ (ops' : List Op) (m : OffNet) (n : OnNet) (w : List Bool),
    List.Forall₂ SameShape ops ops' → m.run E ops = .ok f → Replay E f m n w →
    ∃ n', n.record E ops' = .ok (simulateOn E n.gen (ops'.map blind) (toAlice (Circuit.opened w ops')), n') := by
  induction ops with
  | nil =>
    intro ops' m n w hs _ _
    cases hs
    exact ⟨n, rfl⟩
  | cons op ops ih =>
    intro ops' m n w hs hr h
    cases hs with
    | cons h1 h2 =>
      rename_i op' ops''
      obtain ⟨e1, q1, p1⟩ := off_step E m h.off op
      simp only [OffNet.run, e1, bind, Except.bind] at hr
      obtain ⟨f', e2, _, p2, _⟩ := off_run E ops _ q1
      have hf : f' = f := by rw [e2] at hr; exact Except.ok.inj hr
      subst hf
      obtain ⟨o, n1, st, r1, _⟩ := on_step E f' m n w op op' h h1 p2
      obtain ⟨n', hrec⟩ := ih ops'' _ n1 _ h2 hr r1
      rw [step_parties_on] at st
      simp only [bind, Except.bind] at st
      simp only [OnNet.record, bind, Except.bind]
      cases s0 : n.gen.send E op' with
      | error x => rw [s0] at st; cases st
      | ok x =>
      obtain ⟨g0, m0⟩ := x
      rw [s0] at st
      simp only at st ⊢
      cases s1 : n.eva.step E (E.prg n.gen.prgPos, E.prg n.gen.prgPos ^^^ n.gen.delta) op' (n.toEva ++ m0) with
      | error x => rw [s1] at st; cases st
      | ok x =>
      obtain ⟨eb, e, q, s⟩ := x
      rw [s1] at st
      simp only at st ⊢
      cases s2 : g0.recv E op' (n.toGen ++ s) with
      | error x => rw [s2] at st; cases st
      | ok x =>
      obtain ⟨gb, g, q'⟩ := x
      rw [s2] at st
      cases st
      simp only at hrec ⊢
      rw [hrec]
      refine ⟨n', ?_⟩
      simp only
      congr 2
      rw [h.toGen] at s2
      cases op' with
      | pub b => cases s1; cases s0; cases s2; rfl
      | inA b =>
        cases s0; cases s2
        simp only [OnEva.step, bind, Except.bind] at s1
        split at s1 <;> cases s1
        rfl
      | inB b => cases s1; cases s0; cases s2; rfl
      | xor i j => cases s1; cases s0; cases s2; rfl
      | not i => cases s1; cases s0; cases s2; rfl
      | and i j =>
        cases s2
        simp only [OnEva.step, bind, Except.bind] at s1
        split at s1
        · cases s1
        · split at s1 <;> cases s1
          simp only [List.map_cons, blind, simulateOn, s0]
          rfl
      | reveal p ws =>
        have hnext : Circuit.next w (.reveal p ws) = w := by simp [Circuit.next, Circuit.newWire]
        cases s0
        have hg : g = n.gen := by
          simp only [OnGen.recv, bind, Except.bind] at s2
          split at s2
          · cases s2
          · split at s2 <;> cases s2; rfl
        subst hg
        have hget : ∀ i, n.gen.get E i = m.gen.get E i := by
          intro i; simp [OnGen.get, OffGen.get, h.gwires, h.ndelta]
        have hrel : ∀ i (_ : i < (ws.map (n.gen.get E)).length) (_ : i < (ws.map (n.eva.get E)).length)
            (_ : i < (ws.map (Circuit.get w)).length),
            (ws.map (n.eva.get E))[i] = (ws.map (n.gen.get E))[i] ^^^ sel (ws.map (Circuit.get w))[i] n.gen.delta := by
          intro i a b c
          simp only [List.getElem_map, hget, h.ndelta]
          exact h.rel _
        have hd : lsb n.gen.delta = true := by rw [h.ndelta]; exact h.delta
        have hopen := onOpen (ws.map (n.gen.get E)) (ws.map (n.eva.get E)) (ws.map (Circuit.get w)) n.gen.delta
          (by simp) (by simp) hrel
        simp only [OnEva.step, h.toEva, List.nil_append, bind, Except.bind] at s1
        rw [hnext]
        cases p with
        | alice =>
          obtain ⟨eb', e3⟩ := onEvaReveal_alice n.eva.pubValues n.eva.revealCounter (ws.map (n.eva.get E))
          simp only [reduceCtorEq, if_false, e3] at s1
          cases s1
          have hl : (ws.map (n.eva.get E)).map (fun l => Msg.bit (lsb l))
              = List.zipWith (fun l b => Msg.bit (lsb l != b)) (ws.map (n.gen.get E)) (ws.map (Circuit.get w)) := by
            apply List.ext_getElem
            · simp
            · intro i a b
              simp only [List.length_map] at a
              rw [List.getElem_zipWith, List.getElem_map, hrel i (by simpa using a) (by simpa using a) (by simpa using a), lsb_xor, lsb_sel _ _ hd]
          simp only [List.map_cons, blind, Circuit.opened, toAlice, simulateOn, ne_eq, reduceCtorEq, not_false_eq_true, decide_true,
            List.filter_cons_of_pos, List.append_nil, hl]
        | bob =>
          have e3 := onEvaReveal_bob n.eva.pubValues n.eva.revealCounter (ws.map (n.gen.get E)) (ws.map (n.eva.get E))
            (ws.map (Circuit.get w)) n.gen.delta hd (by simp) (by simp) hrel
          simp only [reduceCtorEq, if_true, if_false, e3] at s1
          cases s1
          simp [blind, Circuit.opened, toAlice, simulateOn]
        | pub =>
          have hsh : op = .reveal .pub ws := by cases op <;> simp_all [SameShape]
          subst hsh
          have hp3 : m.eva.pubValues ++ (ws.map (n.gen.get E)).map lsb <+: n.eva.pubValues := by
            rw [h.pv]
            have := p2.pv
            simp only [offNext, if_true] at this
            simpa [List.map_map, Function.comp_def, hget] using this
          have e3 := onEvaReveal_pub n.eva.pubValues (ws.map (n.gen.get E)) (ws.map (n.eva.get E))
            (ws.map (Circuit.get w)) n.gen.delta hd (by simp) (by simp) hrel m.eva.pubValues hp3
          rw [← h.cnt] at e3
          simp only [reduceCtorEq, if_false, e3, if_true, List.nil_append] at s1
          cases s1
          simp [blind, Circuit.opened, toAlice, simulateOn, hopen]

/-- **C54, offline/online backend.**  After an offline phase of a program of the same shape, all messages the garbler receives in the online
phase are computed from its own program, its state and the values opened to it. -/
theorem C54_online_simulation (E : Env) (d : Block) (ops ops' : List Op) (hs : List.Forall₂ SameShape ops ops') :
    ∃ f n', OffNet.run E { gen := { delta := setDelta d } } ops = .ok f
      ∧ (syncOnline f).record E ops' = .ok (simulateOn E (syncOnline f).gen (ops'.map blind) (toAlice (Circuit.opened [] ops')), n') := by
  obtain ⟨f, e, _, _, hd⟩ := off_run E ops { gen := { delta := setDelta d } } rfl
  obtain ⟨n', r⟩ := simulation_on E f ops ops' _ _ [] hs e (replay_start E d f hd)
  exact ⟨f, n', e, r⟩

/-- **C54, privacy of BOB in the offline/online backend.**  Two online programs that differ only in the inputs of BOB and open the same values
to ALICE: the garbler receives the same messages, in every environment. -/
theorem C54_online_private (E : Env) (d : Block) (ops ops1 ops2 : List Op) (hs : List.Forall₂ SameShape ops ops1)
    (hs' : List.Forall₂ SameShape ops ops2) (hb : ops1.map blind = ops2.map blind)
    (ho : toAlice (Circuit.opened [] ops1) = toAlice (Circuit.opened [] ops2)) :
    ∃ f l n1 n2, OffNet.run E { gen := { delta := setDelta d } } ops = .ok f
      ∧ (syncOnline f).record E ops1 = .ok (l, n1) ∧ (syncOnline f).record E ops2 = .ok (l, n2) := by
  obtain ⟨f, n1, e1, r1⟩ := C54_online_simulation E d ops ops1 hs
  obtain ⟨f', n2, e2, r2⟩ := C54_online_simulation E d ops ops2 hs'
  have : f' = f := by rw [e1] at e2; exact (Except.ok.inj e2).symm
  subst this
  rw [← hb, ← ho] at r2
  exact ⟨f', _, n1, n2, e1, r1, r2⟩

/-! ### Examples -/

/-- ALICE holds a key bit `a`, BOB holds `b` and `c`; opened are `a ∧ b` to both, `b ⊕ c` to ALICE and `b` to BOB. -/
def exProg (a b c : Bool) : List Op :=
  [.inA a, .inB b, .inB c, .and 0 1, .xor 1 2, .reveal .pub [3], .reveal .alice [4], .reveal .bob [1]]

/-- The inputs of BOB differ, what ALICE sees is the same. -/
example : exProg false true false ≠ exProg false false true
    ∧ (exProg false true false).map blind = (exProg false false true).map blind
    ∧ toAlice (Circuit.opened [] (exProg false true false)) = toAlice (Circuit.opened [] (exProg false false true))
    ∧ toAlice (Circuit.opened [] (exProg false true false)) = [[false], [true]]
    ∧ NoCoincidence exEnv (start 6) (exProg false true false)
    ∧ NoCoincidence { exEnv with cotR := shift exEnv.cotR (bobInputs (exProg false true false)) (bobInputs (exProg false false true)) } (start 6)
      (exProg false false true) := by
  refine ⟨by decide, by decide, by decide, by decide, by decide +kernel, by decide +kernel⟩

/-- With other outputs the messages differ: the hypothesis on the opened values is needed. -/
example : ((start 6).record exEnv (exProg true true false)).toOption.map (·.1)
    ≠ ((start 6).record { exEnv with cotR := shift exEnv.cotR [true, false] [false, true] } (exProg true false true)).toOption.map (·.1) := by
  decide +kernel

end Verif.Props.GarblerView
