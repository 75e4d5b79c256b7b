import Verif.Lemmas.Sampling
import Verif.Props.EvaluatorViewOnline
import Mathlib.Algebra.Group.Nat.Even

/-!
How much the view of the evaluator can depend on the inputs of ALICE in the offline/online backend (C67).  `EvaluatorViewOnline` shows that nothing depends on them
unless two points of the hash coincide or the sum of a label and the offset is asked for.  Here the cases where that happens are counted, over all functions under the
hash, all labels of the inputs and all offsets.

The count goes over a game without a garbler: the labels the evaluator holds, the rows of the tables and one hash value for each gate are drawn, the offset is drawn
independently of them.  From the drawn values a function under the hash is made with which the garbler makes just these labels and rows.
-/

namespace Verif.Props.EvaluatorBound
open Verif.Model Verif.Model.GC Verif.Lemmas Verif.Lemmas.Sampling
open Verif.Spec.Circuit (Party Op)
open Verif.Spec
open Verif.Props (SameShape Replay Prefix offNext off_step off_run on_step replay_start C16_delta getD_push setDelta_idem onEvaReveal_alice onEvaReveal_bob onEvaReveal_pub)
open Verif.Props.EvaluatorView (blindA toBob Ask entry)
open Verif.Props.EvaluatorViewOnline

/-! ### The labels the evaluator holds -/

/-- Labels of the wires, number of gates and inputs so far. -/
structure Held where
  ws : List Block := []
  gid : Nat := 0
  k : Nat := 0

def Held.get (E : Env) (S : Held) (i : Nat) : Block := S.ws.getD i (evaConst E false)
def Held.push (S : Held) (x : Block) : Held := { S with ws := S.ws ++ [x] }

/-- One operation, with the labels `ra` of the inputs and `W` of the gates. -/
def Held.next (E : Env) (ra W : Nat → Block) (S : Held) : Op → Held
  | .pub b => S.push (evaConst E b)
  | .inA _ => Held.push { S with k := S.k + 1 } (ra S.k)
  | .inB _ => Held.push { S with k := S.k + 1 } (ra S.k)
  | .and _ _ => Held.push { S with gid := S.gid + 1 } (W S.gid)
  | .xor i j => S.push (S.get E i ^^^ S.get E j)
  | .not i => S.push (S.get E i)
  | .reveal _ _ => S

/-- Labels and tweaks of the hash in a gate. -/
def slotsOp (E : Env) (S : Held) : Op → List (Block × Block)
  | .and i j => [(S.get E i, tweak1 S.gid), (S.get E j, tweak2 S.gid)]
  | _ => []

def slots (E : Env) (ra W : Nat → Block) (S : Held) : List Op → List (Block × Block)
  | [] => []
  | op :: ops => slotsOp E S op ++ slots E ra W (S.next E ra W op) ops

/-- The point of the label that is held, and of the other one. -/
def ptA (E : Env) (x : Block × Block) : Block := E.sigma x.1 ^^^ x.2
def ptH (E : Env) (d : Block) (x : Block × Block) : Block := E.sigma (x.1 ^^^ d) ^^^ x.2

/-- The hash values of the labels held in a gate: the second is drawn, the first makes the gate give the label `va (2 * gid)`. -/
def hB (E : Env) (va : Nat → Block) (S : Held) (j : Nat) : Block := va (2 * S.gid + 1) ^^^ ptA E (S.get E j, tweak2 S.gid)
def hA (E : Env) (va vt : Nat → Block) (S : Held) (i j : Nat) : Block :=
  va (2 * S.gid) ^^^ hB E va S j ^^^ sel (lsb (S.get E i)) (vt (2 * S.gid)) ^^^ sel (lsb (S.get E j)) (vt (2 * S.gid + 1)) ^^^ sel (lsb (S.get E j)) (S.get E i)

/-- The function at the points of the labels held. -/
def valsAOp (E : Env) (va vt : Nat → Block) (S : Held) : Op → List Block
  | .and i j => [hA E va vt S i j ^^^ ptA E (S.get E i, tweak1 S.gid), va (2 * S.gid + 1)]
  | _ => []

/-- The function at the other points, so that the rows `vt` come out. -/
def valsHOp (E : Env) (va vt : Nat → Block) (d : Block) (S : Held) (w : List Bool) : Op → List Block
  | .and i j => [hA E va vt S i j ^^^ vt (2 * S.gid) ^^^ sel (lsb (S.get E j) != Circuit.get w j) d ^^^ ptH E d (S.get E i, tweak1 S.gid),
      hB E va S j ^^^ vt (2 * S.gid + 1) ^^^ S.get E i ^^^ sel (Circuit.get w i) d ^^^ ptH E d (S.get E j, tweak2 S.gid)]
  | _ => []

/-- The labels of the gates among the drawn values. -/
def evens (va : Nat → Block) (g : Nat) : Block := va (2 * g)

def valsA (E : Env) (ra va vt : Nat → Block) (S : Held) : List Op → List Block
  | [] => []
  | op :: ops => valsAOp E va vt S op ++ valsA E ra va vt (S.next E ra (evens va) op) ops

def valsH (E : Env) (ra va vt : Nat → Block) (d : Block) (S : Held) (w : List Bool) : List Op → List Block
  | [] => []
  | op :: ops => valsHOp E va vt d S w op ++ valsH E ra va vt d (S.next E ra (evens va) op) (Circuit.next w op) ops

/-- Number of AND gates. -/
def ands : List Op → Nat
  | [] => 0
  | .and _ _ :: ops => ands ops + 1
  | _ :: ops => ands ops

/-! ### What the evaluator sees of it -/

/-- The bits the garbler opens with: they decode the labels held to the values. -/
def maskBits (E : Env) (S : Held) (w : List Bool) (ws : List Nat) : List Bool := ws.map fun i => lsb (S.get E i) != Circuit.get w i

def masksOp (E : Env) (S : Held) (w : List Bool) : Op → List Bool
  | .reveal p ws => if p = .pub then maskBits E S w ws else []
  | _ => []

def masks (E : Env) (ra W : Nat → Block) (S : Held) (w : List Bool) : List Op → List Bool
  | [] => []
  | op :: ops => masksOp E S w op ++ masks E ra W (S.next E ra W op) (Circuit.next w op) ops

/-- The messages of the online phase. -/
def msgsOp (E : Env) (ra : Nat → Block) (S : Held) (w : List Bool) : Op → List Msg
  | .inA _ => [.blk (ra S.k)]
  | .inB _ => [.blk (ra S.k)]
  | .reveal p ws => if p = .bob then (maskBits E S w ws).map .bit else []
  | _ => []

def msgs (E : Env) (ra W : Nat → Block) (S : Held) (w : List Bool) : List Op → List Msg
  | [] => []
  | op :: ops => msgsOp E ra S w op ++ msgs E ra W (S.next E ra W op) (Circuit.next w op) ops

/-- The values the evaluator outputs. -/
def outsOp (w : List Bool) : Op → List (List Bool)
  | .reveal p ws => [if p = .alice then ws.map fun _ => false else ws.map (Circuit.get w)]
  | _ => []

def outs (w : List Bool) : List Op → List (List Bool)
  | [] => []
  | op :: ops => outsOp w op ++ outs (Circuit.next w op) ops

/-- The messages it sends. -/
def sentOp (E : Env) (S : Held) (w : List Bool) : Op → List Msg
  | .reveal .alice ws => ws.map fun i => .bit (lsb (S.get E i))
  | .reveal .pub ws => [.bits (ws.map (Circuit.get w)), .dig (E.hash (ws.map (S.get E)))]
  | _ => []

def sent (E : Env) (ra W : Nat → Block) (S : Held) (w : List Bool) : List Op → List Msg
  | [] => []
  | op :: ops => sentOp E S w op ++ sent E ra W (S.next E ra W op) (Circuit.next w op) ops

/-- The labels at the end. -/
def final (E : Env) (ra W : Nat → Block) (S : Held) : List Op → Held
  | [] => S
  | op :: ops => final E ra W (S.next E ra W op) ops

/-- What is stored in the offline phase. -/
def stored (E : Env) (ra W vt : Nat → Block) (ops : List Op) : OffEva :=
  { gid := ands ops, gc := (List.range (2 * ands ops)).map vt, pubValues := masks E ra W {} [] ops }

/-- The view of the evaluator, from the labels it holds, the rows and the values of the wires it opens. -/
def seen (E : Env) (ra W vt : Nat → Block) (ops : List Op) : OffEva × List Msg × List Msg × List (List Bool) × OnEva × List Msg × List Msg :=
  (stored E ra W vt ops, [], msgs E ra W {} [] ops, outs [] ops,
    { gid := ands ops, gc := (stored E ra W vt ops).gc, pubValues := (stored E ra W vt ops).pubValues,
      revealCounter := (stored E ra W vt ops).pubValues.length, wires := (final E ra W {} ops).ws }, [], sent E ra W {} [] ops)

/-! ### One gate -/

theorem x0 (a : Block) : a ^^^ (0 : Block) = a := BitVec.xor_zero
theorem xc (a b : Block) : a ^^^ (a ^^^ b) = b := by rw [← BitVec.xor_assoc, BitVec.xor_self, BitVec.zero_xor]
theorem xc' (a b : Block) : a ^^^ b ^^^ b = a := by rw [BitVec.xor_assoc, BitVec.xor_self, BitVec.xor_zero]
theorem row1 (h v s : Block) : h ^^^ (h ^^^ v ^^^ s) ^^^ s = v := by rw [BitVec.xor_assoc h v, xc, xc']
theorem row2 (h v a s : Block) : h ^^^ (h ^^^ v ^^^ a ^^^ s) ^^^ (a ^^^ s) = v := by
  have : h ^^^ (h ^^^ v ^^^ a ^^^ s) ^^^ (a ^^^ s) = h ^^^ (h ^^^ (v ^^^ ((a ^^^ s) ^^^ (a ^^^ s)))) := by ac_rfl
  rw [this, BitVec.xor_self, xc]; exact x0 v

/-- The evaluator makes the label drawn. -/
theorem evaluates {E : Env} {P : Block → Block} {Q : Nat → Block} {va vt : Nat → Block} {S : Held} {i j : Nat}
    (h1 : P (ptA E (S.get E i, tweak1 S.gid)) = hA E va vt S i j ^^^ ptA E (S.get E i, tweak1 S.gid))
    (h2 : P (ptA E (S.get E j, tweak2 S.gid)) = va (2 * S.gid + 1)) :
    evalGate (withBoth E P Q) (S.get E i) (S.get E j) (vt (2 * S.gid), vt (2 * S.gid + 1)) S.gid = va (2 * S.gid) := by
  have eA : (withBoth E P Q).h (S.get E i) (tweak1 S.gid) = hA E va vt S i j := by
    show P (ptA E (S.get E i, tweak1 S.gid)) ^^^ ptA E (S.get E i, tweak1 S.gid) = _
    rw [h1, xc']
  have eB : (withBoth E P Q).h (S.get E j) (tweak2 S.gid) = hB E va S j := by
    show P (ptA E (S.get E j, tweak2 S.gid)) ^^^ ptA E (S.get E j, tweak2 S.gid) = _
    rw [h2]; rfl
  unfold evalGate
  simp only [eA, eB, hA]
  generalize sel (lsb (S.get E i)) (vt (2 * S.gid)) = x
  generalize sel (lsb (S.get E j)) (vt (2 * S.gid + 1)) = y
  generalize sel (lsb (S.get E j)) (S.get E i) = z
  generalize hB E va S j = h
  generalize va (2 * S.gid) = v
  have : v ^^^ h ^^^ x ^^^ y ^^^ z ^^^ h ^^^ x ^^^ y ^^^ z = v ^^^ (h ^^^ (h ^^^ (x ^^^ (x ^^^ (y ^^^ (y ^^^ (z ^^^ z))))))) := by ac_rfl
  rw [this, BitVec.xor_self, xc, xc, xc]; exact x0 v

/-- The garbler makes the rows and the label drawn. -/
theorem gate {E : Env} {P : Block → Block} {Q : Nat → Block} {va vt : Nat → Block} {S : Held} {w : List Bool} {d : Block} (hd : lsb d = true) {i j : Nat}
    (h1 : P (ptA E (S.get E i, tweak1 S.gid)) = hA E va vt S i j ^^^ ptA E (S.get E i, tweak1 S.gid))
    (h2 : P (ptA E (S.get E j, tweak2 S.gid)) = va (2 * S.gid + 1))
    (h3 : P (ptH E d (S.get E i, tweak1 S.gid)) = hA E va vt S i j ^^^ vt (2 * S.gid) ^^^ sel (lsb (S.get E j) != Circuit.get w j) d ^^^ ptH E d (S.get E i, tweak1 S.gid))
    (h4 : P (ptH E d (S.get E j, tweak2 S.gid)) = hB E va S j ^^^ vt (2 * S.gid + 1) ^^^ S.get E i ^^^ sel (Circuit.get w i) d ^^^ ptH E d (S.get E j, tweak2 S.gid)) :
    garble (withBoth E P Q) (S.get E i ^^^ sel (Circuit.get w i) d) (S.get E i ^^^ sel (Circuit.get w i) d ^^^ d) (S.get E j ^^^ sel (Circuit.get w j) d)
      (S.get E j ^^^ sel (Circuit.get w j) d ^^^ d) d S.gid
      = (va (2 * S.gid) ^^^ sel (Circuit.get w i && Circuit.get w j) d, vt (2 * S.gid), vt (2 * S.gid + 1)) := by
  have eA : (withBoth E P Q).h (S.get E i) (tweak1 S.gid) = hA E va vt S i j := by
    show P (ptA E (S.get E i, tweak1 S.gid)) ^^^ ptA E (S.get E i, tweak1 S.gid) = _
    rw [h1, xc']
  have eB : (withBoth E P Q).h (S.get E j) (tweak2 S.gid) = hB E va S j := by
    show P (ptA E (S.get E j, tweak2 S.gid)) ^^^ ptA E (S.get E j, tweak2 S.gid) = _
    rw [h2]; rfl
  have eA' : (withBoth E P Q).h (S.get E i ^^^ d) (tweak1 S.gid) = hA E va vt S i j ^^^ vt (2 * S.gid) ^^^ sel (lsb (S.get E j) != Circuit.get w j) d := by
    show P (ptH E d (S.get E i, tweak1 S.gid)) ^^^ ptH E d (S.get E i, tweak1 S.gid) = _
    rw [h3, xc']
  have eB' : (withBoth E P Q).h (S.get E j ^^^ d) (tweak2 S.gid) = hB E va S j ^^^ vt (2 * S.gid + 1) ^^^ S.get E i ^^^ sel (Circuit.get w i) d := by
    show P (ptH E d (S.get E j, tweak2 S.gid)) ^^^ ptH E d (S.get E j, tweak2 S.gid) = _
    rw [h4, xc']
  have ht : (garble (withBoth E P Q) (S.get E i ^^^ sel (Circuit.get w i) d) (S.get E i ^^^ sel (Circuit.get w i) d ^^^ d) (S.get E j ^^^ sel (Circuit.get w j) d)
      (S.get E j ^^^ sel (Circuit.get w j) d ^^^ d) d S.gid).2 = (vt (2 * S.gid), vt (2 * S.gid + 1)) := by
    have key : ∀ (L : Block) (t : Block) (v : Bool), (withBoth E P Q).h (L ^^^ sel v d) t ^^^ (withBoth E P Q).h (L ^^^ sel v d ^^^ d) t
        = (withBoth E P Q).h L t ^^^ (withBoth E P Q).h (L ^^^ d) t := by
      intro L t v
      cases v
      · show (withBoth E P Q).h (L ^^^ 0) t ^^^ (withBoth E P Q).h (L ^^^ 0 ^^^ d) t = _
        rw [x0]
      · show (withBoth E P Q).h (L ^^^ d) t ^^^ (withBoth E P Q).h (L ^^^ d ^^^ d) t = _
        rw [xc', BitVec.xor_comm]
    unfold garble
    simp only [lsb_xor, lsb_sel _ _ hd, key, eA, eA', eB, eB', row1, row2]
  have ho := halfgate (withBoth E P Q) (S.get E i ^^^ sel (Circuit.get w i) d) (S.get E j ^^^ sel (Circuit.get w j) d) d hd S.gid (Circuit.get w i) (Circuit.get w j)
  rw [ht, xc', xc', evaluates h1 h2] at ho
  refine Prod.ext ?_ ht
  rw [ho, xc']

/-! ### The offline phase -/

/-- The function has the values drawn at the points of the program. -/
def Fits (E : Env) (P : Block → Block) (ra va vt : Nat → Block) (d : Block) (S : Held) (w : List Bool) (ops : List Op) : Prop :=
  ((slots E ra (evens va) S ops).map fun x => P (ptA E x)) = valsA E ra va vt S ops
    ∧ ((slots E ra (evens va) S ops).map fun x => P (ptH E d x)) = valsH E ra va vt d S w ops

theorem fits_cons {E : Env} {P : Block → Block} {ra va vt : Nat → Block} {d : Block} {S : Held} {w : List Bool} {op : Op} {ops : List Op}
    (h : Fits E P ra va vt d S w (op :: ops)) :
    (((slotsOp E S op).map fun x => P (ptA E x)) = valsAOp E va vt S op ∧ ((slotsOp E S op).map fun x => P (ptH E d x)) = valsHOp E va vt d S w op)
      ∧ Fits E P ra va vt d (S.next E ra (evens va) op) (Circuit.next w op) ops := by
  obtain ⟨h1, h2⟩ := h
  simp only [slots, valsA, valsH, List.map_append] at h1 h2
  have l1 : ((slotsOp E S op).map fun x => P (ptA E x)).length = (valsAOp E va vt S op).length := by cases op <;> rfl
  have l2 : ((slotsOp E S op).map fun x => P (ptH E d x)).length = (valsHOp E va vt d S w op).length := by cases op <;> rfl
  obtain ⟨a1, a2⟩ := List.append_inj h1 l1
  obtain ⟨b1, b2⟩ := List.append_inj h2 l2
  exact ⟨⟨a1, b1⟩, a2, b2⟩

/-- The offline garbler and the labels the evaluator will hold. -/
structure Sim (E : Env) (E' : Env) (m : OffNet) (S : Held) (w : List Bool) : Prop where
  lsbd : lsb m.gen.delta = true
  gid : m.gen.gid = S.gid
  prg : m.gen.prgPos = S.k
  off : m.toEva = []
  gw : m.gen.wires.length = w.length
  sw : S.ws.length = w.length
  rel : ∀ i, m.gen.get E' i = S.get E i ^^^ sel (Circuit.get w i) m.gen.delta

theorem Sim.push {E : Env} {P : Block → Block} {Q : Nat → Block} {m k : OffNet} {S T : Held} {w : List Bool} (h : Sim E (withBoth E P Q) m S w)
    {x y : Block} {v : Bool} (hx : x = y ^^^ sel v m.gen.delta) (d : k.gen.delta = m.gen.delta) (kw : k.gen.wires = m.gen.wires ++ [x]) (tw : T.ws = S.ws ++ [y])
    (gid : k.gen.gid = T.gid) (prg : k.gen.prgPos = T.k) (off : k.toEva = []) : Sim E (withBoth E P Q) k T (w ++ [v]) := by
  refine ⟨by rw [d]; exact h.lsbd, gid, prg, off, by simp [kw, h.gw], by simp [tw, h.sw], ?_⟩
  intro i
  have := h.rel i
  simp only [OffGen.get, Held.get, Circuit.get, d, kw, tw, getD_push, h.gw, h.sw] at this ⊢
  by_cases hi : i = w.length
  · simp only [hi, if_true]; exact hx
  · simp only [hi, if_false]; exact this

theorem Sim.active {E E' : Env} {m : OffNet} {S : Held} {w : List Bool} (h : Sim E E' m S w) (i : Nat) : active E' m w i = S.get E i := by
  rw [EvaluatorViewOnline.active, h.rel, xc']

/-- What one operation adds to the tables and to the labels of the gates. -/
def rowsOp (vt : Nat → Block) (S : Held) : Op → List Block
  | .and _ _ => [vt (2 * S.gid), vt (2 * S.gid + 1)]
  | _ => []

def labelsOp (W : Nat → Block) (d : Block) (S : Held) (w : List Bool) : Op → List Block
  | .and i j => [W S.gid ^^^ sel (Circuit.get w i && Circuit.get w j) d]
  | _ => []

theorem mask_eq {E E' : Env} {m : OffNet} {S : Held} {w : List Bool} (h : Sim E E' m S w) (ws : List Nat) :
    (ws.map fun i => lsb (m.gen.get E' i)) = maskBits E S w ws := by
  apply List.map_congr_left
  intro i _
  rw [h.rel, lsb_xor, lsb_sel _ _ h.lsbd]

theorem sim_step {E : Env} {P : Block → Block} {Q : Nat → Block} {ra va vt : Nat → Block} {m : OffNet} {S : Held} {w : List Bool}
    (h : Sim E (withBoth E P Q) m S w) {op : Op}
    (hA : ((slotsOp E S op).map fun x => P (ptA E x)) = valsAOp E va vt S op)
    (hH : ((slotsOp E S op).map fun x => P (ptH E m.gen.delta x)) = valsHOp E va vt m.gen.delta S w op)
    (hq : ∀ b, allInputs [op] = [b] → Q S.k = ra S.k ^^^ sel b m.gen.delta) :
    Sim E (withBoth E P Q) (offNext (withBoth E P Q) m op) (S.next E ra (evens va) op) (Circuit.next w op)
      ∧ (offNext (withBoth E P Q) m op).eva = { gid := m.eva.gid + ands [op], gc := m.eva.gc ++ rowsOp vt S op, pubValues := m.eva.pubValues ++ masksOp E S w op }
      ∧ (offNext (withBoth E P Q) m op).gen.outLabels = m.gen.outLabels ++ labelsOp (evens va) m.gen.delta S w op := by
  cases op with
  | pub b =>
    refine ⟨?_, by simp [offNext, ands, rowsOp, masksOp], by simp [offNext, labelsOp, OffGen.push]⟩
    refine h.push (x := genConst E m.gen.delta b) (y := evaConst E b) (v := b) ?_ rfl rfl rfl h.gid h.prg h.off
    cases b <;> simp [genConst, evaConst, sel]
  | inA b =>
    refine ⟨?_, by simp [offNext, ands, rowsOp, masksOp], by simp [offNext, labelsOp, OffGen.push]⟩
    refine h.push (x := Q m.gen.prgPos) (y := ra S.k) (v := b) ?_ rfl rfl rfl h.gid (congrArg (· + 1) h.prg) h.off
    rw [h.prg]; exact hq b rfl
  | inB b =>
    refine ⟨?_, by simp [offNext, ands, rowsOp, masksOp], by simp [offNext, labelsOp, OffGen.push]⟩
    refine h.push (x := Q m.gen.prgPos) (y := ra S.k) (v := b) ?_ rfl rfl rfl h.gid (congrArg (· + 1) h.prg) h.off
    rw [h.prg]; exact hq b rfl
  | xor i j =>
    refine ⟨?_, by simp [offNext, ands, rowsOp, masksOp], by simp [offNext, labelsOp, OffGen.push]⟩
    refine h.push (x := m.gen.get (withBoth E P Q) i ^^^ m.gen.get (withBoth E P Q) j) (y := S.get E i ^^^ S.get E j)
      (v := Circuit.get w i != Circuit.get w j) ?_ rfl rfl rfl h.gid h.prg h.off
    rw [h.rel i, h.rel j, ← sel_xor]; ac_rfl
  | not i =>
    refine ⟨?_, by simp [offNext, ands, rowsOp, masksOp], by simp [offNext, labelsOp, OffGen.push]⟩
    refine h.push (x := m.gen.get (withBoth E P Q) i ^^^ m.gen.delta) (y := S.get E i) (v := !Circuit.get w i) ?_ rfl rfl rfl h.gid h.prg h.off
    rw [h.rel i]
    cases Circuit.get w i <;> simp [sel, BitVec.xor_assoc]
  | reveal p ws =>
    have hn : Circuit.next w (.reveal p ws) = w := by simp [Circuit.next, Circuit.newWire]
    rw [hn]
    by_cases hp : p = .pub
    · subst hp
      simp only [offNext, if_true, Held.next]
      refine ⟨⟨h.lsbd, h.gid, h.prg, h.off, h.gw, h.sw, h.rel⟩, ?_, by simp [labelsOp]⟩
      rw [mask_eq h]
      simp [ands, rowsOp, masksOp]
    · simp only [offNext, hp, if_false, Held.next]
      exact ⟨h, by simp [ands, rowsOp, masksOp, hp], by simp [labelsOp]⟩
  | and i j =>
    simp only [slotsOp, valsAOp, valsHOp, List.map_cons, List.map_nil, List.cons.injEq, and_true] at hA hH
    have hg := gate (Q := Q) h.lsbd hA.1 hA.2 hH.1 hH.2
    rw [← h.rel i, ← h.rel j, ← h.gid] at hg
    simp only [offNext, hg]
    refine ⟨?_, by simp [ands, rowsOp, masksOp, h.gid], by simp [labelsOp, OffGen.push, evens, h.gid]⟩
    refine h.push (y := evens va S.gid) (v := Circuit.get w i && Circuit.get w j) ?_ rfl rfl rfl (congrArg (· + 1) h.gid) h.prg rfl
    rw [h.gid]; rfl

theorem ands_cons (op : Op) (ops : List Op) : ands (op :: ops) = ands [op] + ands ops := by
  cases op <;> simp [ands, Nat.add_comm]

theorem next_gid (E : Env) (ra W : Nat → Block) (S : Held) (op : Op) : (S.next E ra W op).gid = S.gid + ands [op] := by
  cases op <;> rfl

theorem next_k (E : Env) (ra W : Nat → Block) (S : Held) (op : Op) : (S.next E ra W op).k = S.k + (allInputs [op]).length := by
  cases op <;> rfl

theorem rows_cons (vt : Nat → Block) (S : Held) (op : Op) (ops : List Op) :
    rowsOp vt S op ++ (List.range' (2 * (S.gid + ands [op])) (2 * ands ops)).map vt = (List.range' (2 * S.gid) (2 * ands (op :: ops))).map vt := by
  cases op with
  | and i j =>
    have : 2 * (ands ops + 1) = 2 * ands ops + 1 + 1 := by omega
    simp only [rowsOp, ands, this, List.range'_succ, List.map_cons, List.cons_append, List.nil_append]
    rfl
  | _ => rfl

def labels (E : Env) (ra W : Nat → Block) (d : Block) (S : Held) (w : List Bool) : List Op → List Block
  | [] => []
  | op :: ops => labelsOp W d S w op ++ labels E ra W d (S.next E ra W op) (Circuit.next w op) ops

/-- The labels of the inputs drawn by the garbler, from those held. -/
def Inputs (Q ra : Nat → Block) (d : Block) (k0 : Nat) (a : List Bool) : Prop := ∀ k, k < a.length → Q (k0 + k) = ra (k0 + k) ^^^ sel (a.getD k false) d

theorem Inputs.head {Q ra : Nat → Block} {d : Block} {k0 : Nat} {op : Op} {ops : List Op} (h : Inputs Q ra d k0 (allInputs (op :: ops))) :
    ∀ b, allInputs [op] = [b] → Q k0 = ra k0 ^^^ sel b d := by
  intro b h1
  have := h 0 (by rw [allInputs_cons, h1]; simp)
  rw [allInputs_cons op, h1] at this
  simpa using this

theorem Inputs.tail {Q ra : Nat → Block} {d : Block} {k0 : Nat} {op : Op} {ops : List Op} (h : Inputs Q ra d k0 (allInputs (op :: ops))) :
    Inputs Q ra d (k0 + (allInputs [op]).length) (allInputs ops) := by
  intro k hk
  have := h ((allInputs [op]).length + k) (by rw [allInputs_cons op ops, List.length_append]; omega)
  rw [allInputs_cons op ops, ← Nat.add_assoc] at this
  rw [this]
  simp [List.getD_eq_getElem?_getD, List.getElem?_append_right]

/-- The offline phase with a function that fits. -/
theorem sim_run {E : Env} {P : Block → Block} {Q : Nat → Block} {ra va vt : Nat → Block} : ∀ (ops : List Op) (m : OffNet) (S : Held) (w : List Bool),
    Sim E (withBoth E P Q) m S w → Fits E P ra va vt m.gen.delta S w ops → Inputs Q ra m.gen.delta S.k (allInputs ops) →
    ∃ f, m.run (withBoth E P Q) ops = .ok f ∧ f.toEva = [] ∧ f.gen.delta = m.gen.delta
      ∧ f.eva = { gid := m.eva.gid + ands ops, gc := m.eva.gc ++ (List.range' (2 * S.gid) (2 * ands ops)).map vt,
                  pubValues := m.eva.pubValues ++ masks E ra (evens va) S w ops }
      ∧ f.gen.outLabels = m.gen.outLabels ++ labels E ra (evens va) m.gen.delta S w ops
      ∧ asked (withBoth E P Q) m w ops = (slots E ra (evens va) S ops).map (ptA E)
      ∧ hidden (withBoth E P Q) m w ops = (slots E ra (evens va) S ops).map (ptH E m.gen.delta) := by
  intro ops
  induction ops with
  | nil =>
    intro m S w h _ _
    exact ⟨m, rfl, h.off, rfl, by simp [ands, masks], by simp [labels], rfl, rfl⟩
  | cons op ops ih =>
    intro m S w h hf hq
    obtain ⟨⟨f1, f2⟩, f3⟩ := fits_cons hf
    obtain ⟨s1, s2, s3⟩ := sim_step h f1 f2 hq.head
    have hd := offNext_delta (withBoth E P Q) m op
    rw [← hd] at f3
    have hq' : Inputs Q ra (offNext (withBoth E P Q) m op).gen.delta (S.next E ra (evens va) op).k (allInputs ops) := by
      rw [hd, next_k]; exact hq.tail
    obtain ⟨f, r1, r2, r3, r4, r5, r6, r7⟩ := ih _ _ _ s1 f3 hq'
    refine ⟨f, ?_, r2, r3.trans hd, ?_, ?_, ?_, ?_⟩
    · simp only [OffNet.run, (off_step _ m h.off op).1, bind, Except.bind, r1]
    · rw [r4, s2, next_gid]
      simp only [List.append_assoc, rows_cons, masks]
      rw [ands_cons op ops, Nat.add_assoc]
    · rw [r5, s3, hd, List.append_assoc]; rfl
    · simp only [asked, slots, List.map_append, r6]
      congr 1
      cases op with
      | and i j => simp only [askedOp, slotsOp, List.map_cons, List.map_nil, h.active, h.gid]; rfl
      | _ => rfl
    · simp only [EvaluatorViewOnline.hidden, slots, List.map_append, r7, hd]
      congr 1
      cases op with
      | and i j => simp only [hiddenOp, slotsOp, List.map_cons, List.map_nil, h.active, h.gid]; rfl
      | _ => rfl

/-! ### The online phase -/

/-- What the evaluator gets in the online phase, up to any point. -/
theorem record {E : Env} {P : Block → Block} {Q : Nat → Block} {ra va vt : Nat → Block} {f : OffNet} (rest : List Op) : ∀ (ops : List Op) (m : OffNet) (n : OnNet) (S : Held)
    (w : List Bool), Sim E (withBoth E P Q) m S w → Replay (withBoth E P Q) f m n w → m.run (withBoth E P Q) (ops ++ rest) = .ok f →
    Fits E P ra va vt m.gen.delta S w ops → Inputs Q ra m.gen.delta S.k (allInputs ops) →
    ∃ n', n.recordEva (withBoth E P Q) ops = .ok (msgs E ra (evens va) S w ops, n') := by
  intro ops
  induction ops with
  | nil => intro m n S w _ _ _ _ _; exact ⟨n, rfl⟩
  | cons op ops ih =>
    intro m n S w h r hf hx hq
    obtain ⟨⟨f1, f2⟩, f3⟩ := fits_cons hx
    obtain ⟨t1, -, -⟩ := sim_step h f1 f2 hq.head
    have hd := offNext_delta (withBoth E P Q) m op
    rw [← hd] at f3
    have hq' : Inputs Q ra (offNext (withBoth E P Q) m op).gen.delta (S.next E ra (evens va) op).k (allInputs ops) := by
      rw [hd, next_k]; exact hq.tail
    obtain ⟨a1, a2, -⟩ := off_step (withBoth E P Q) m r.off op
    simp only [List.cons_append, OffNet.run, a1, bind, Except.bind] at hf
    have pf : Prefix (offNext (withBoth E P Q) m op) f := by
      obtain ⟨y, y1, _, y2, _⟩ := off_run (withBoth E P Q) (ops ++ rest) _ a2
      rw [hf] at y1; cases y1; exact y2
    obtain ⟨o, n1, s1, r1, -⟩ := on_step (withBoth E P Q) f m n w op op r (by cases op <;> simp [SameShape]) pf
    obtain ⟨g, s, eb, u, gb, x1, x2, x3, x4⟩ := on_ok s1
    obtain ⟨n', i1⟩ := ih _ n1 _ _ t1 r1 hf f3 hq'
    refine ⟨n', ?_⟩
    simp only [OnNet.recordEva, bind, Except.bind, x1, x2, x3]
    rw [show (⟨n1.gen, n1.eva, n1.toEva, n1.toGen⟩ : OnNet) = n1 from rfl, i1]
    simp only [msgs, Except.ok.injEq, Prod.mk.injEq, and_true]
    congr 1
    have hin : ∀ b, allInputs [op] = [b] → (if b then Q n.gen.prgPos ^^^ n.gen.delta else Q n.gen.prgPos) = ra S.k := by
      intro b hb
      have := hq.head b hb
      rw [r.prg, h.prg, r.ndelta, this]
      cases b <;> simp [sel, xc']
    cases op with
    | inA b =>
      simp only [OnGen.send, Except.ok.injEq, Prod.mk.injEq] at x1
      rw [← x1.2]
      simp only [OnNet.chosen, msgsOp, List.append_nil, List.cons.injEq, Msg.blk.injEq, and_true]
      exact hin b rfl
    | inB b =>
      simp only [OnGen.send, Except.ok.injEq, Prod.mk.injEq] at x1
      rw [← x1.2]
      simp only [OnNet.chosen, msgsOp, List.nil_append, List.cons.injEq, Msg.blk.injEq, and_true]
      exact hin b rfl
    | reveal p ws =>
      simp only [OnGen.send, Except.ok.injEq, Prod.mk.injEq] at x1
      rw [← x1.2]
      simp only [OnNet.chosen, msgsOp, List.append_nil]
      split
      · rw [← mask_eq h]
        simp [onGet r]
      · rfl
    | and i j =>
      simp only [OnGen.send, bind, Except.bind] at x1
      split at x1
      · cases x1
      · simp only [Except.ok.injEq, Prod.mk.injEq] at x1
        rw [← x1.2]; rfl
    | _ =>
      simp only [OnGen.send, Except.ok.injEq, Prod.mk.injEq] at x1
      rw [← x1.2]; rfl

theorem vget_rows (vt : Nat → Block) {M s : Nat} (h : s < M) : vget ((List.range M).map vt) s = .ok (vt s) := by
  simp [vget, h]

theorem rev_alice (E : Env) (S : Held) (pv : List Bool) (c : Nat) (r : List Msg) : ∀ ws : List Nat,
    onEvaReveal .alice pv c (ws.map (S.get E)) r = .ok (ws.map fun _ => false, c, r, ws.map fun i => .bit (lsb (S.get E i))) := by
  intro ws
  induction ws with
  | nil => rfl
  | cons i ws ih => simp only [List.map_cons, onEvaReveal, bind, Except.bind, ih]

theorem rev_bob (E : Env) (S : Held) (w pv : List Bool) (c : Nat) (r : List Msg) : ∀ ws : List Nat,
    onEvaReveal .bob pv c (ws.map (S.get E)) ((maskBits E S w ws).map .bit ++ r) = .ok (ws.map (Circuit.get w), c, r, []) := by
  intro ws
  induction ws with
  | nil => rfl
  | cons i ws ih =>
    have hb : ((lsb (S.get E i) != Circuit.get w i) != lsb (S.get E i)) = Circuit.get w i := by cases lsb (S.get E i) <;> simp
    simp only [maskBits, List.map_cons, List.cons_append, onEvaReveal, recvBit, bind, Except.bind, hb] at ih ⊢
    rw [ih]

theorem rev_pub (E : Env) (S : Held) (w : List Bool) (r : List Msg) : ∀ (ws : List Nat) (done more pv : List Bool), pv = done ++ (maskBits E S w ws ++ more) →
    onEvaReveal .pub pv done.length (ws.map (S.get E)) r = .ok (ws.map (Circuit.get w), done.length + ws.length, r, []) := by
  intro ws
  induction ws with
  | nil => intro done more pv _; rfl
  | cons i ws ih =>
    intro done more pv h
    have hb : ((lsb (S.get E i) != Circuit.get w i) != lsb (S.get E i)) = Circuit.get w i := by cases lsb (S.get E i) <;> simp
    have hv : vget pv done.length = .ok (lsb (S.get E i) != Circuit.get w i) := by
      rw [h]
      simp [vget, maskBits]
    have := ih (done ++ [lsb (S.get E i) != Circuit.get w i]) more pv (by rw [h]; simp [maskBits])
    rw [List.length_append, List.length_singleton] at this
    simp only [List.map_cons, onEvaReveal, bind, Except.bind, hv, this, hb, List.length_cons]
    rw [Nat.add_assoc, Nat.add_comm 1]

/-- The evaluator alone, with a function that fits. -/
theorem eva_run {E : Env} {P : Block → Block} {Q : Nat → Block} {ra va vt : Nat → Block} {d : Block} (more : List Bool) : ∀ (ops : List Op) (e : OnEva) (S : Held) (w done : List Bool)
    (M : Nat), e.wires = S.ws → e.gid = S.gid → S.ws.length = w.length → e.gc = (List.range M).map vt → 2 * (S.gid + ands ops) ≤ M →
    e.pubValues = done ++ masks E ra (evens va) S w ops ++ more → e.revealCounter = done.length → Fits E P ra va vt d S w ops →
    e.run (withBoth E P Q) (ops.map blindA) (msgs E ra (evens va) S w ops)
      = .ok (outs w ops, { e with gid := (final E ra (evens va) S ops).gid, wires := (final E ra (evens va) S ops).ws,
                                  revealCounter := done.length + (masks E ra (evens va) S w ops).length }, [], sent E ra (evens va) S w ops) := by
  intro ops
  induction ops with
  | nil =>
    intro e S w done M h1 h2 _ _ _ _ h6 _
    obtain ⟨a, b, c, x, y⟩ := e
    simp only at h1 h2 h6
    subst h1; subst h2; subst h6
    simp [OnEva.run, outs, final, masks, msgs, sent]
  | cons op ops ih =>
    intro e S w done M h1 h2 hw h3 h4 h5 h6 hf
    obtain ⟨⟨f1, -⟩, f3⟩ := fits_cons hf
    have hget : ∀ i, e.get (withBoth E P Q) i = S.get E i := by intro i; simp only [OnEva.get, Held.get, h1]; rfl
    have hstep : ∃ e', e.alone (withBoth E P Q) (blindA op) (msgs E ra (evens va) S w (op :: ops))
        = .ok ((outsOp w op).head?, e', msgs E ra (evens va) (S.next E ra (evens va) op) (Circuit.next w op) ops, sentOp E S w op)
        ∧ e' = { e with gid := (S.next E ra (evens va) op).gid, wires := (S.next E ra (evens va) op).ws, revealCounter := e.revealCounter + (masksOp E S w op).length } := by
      obtain ⟨gid, gc, pv, c, ws⟩ := e
      simp only at h1 h2 h3 h5 h6
      subst h1; subst h2
      cases op with
      | pub b => exact ⟨_, rfl, rfl⟩
      | inA b => exact ⟨_, rfl, rfl⟩
      | inB b => exact ⟨_, rfl, rfl⟩
      | xor i j => exact ⟨_, rfl, rfl⟩
      | not i => exact ⟨_, rfl, rfl⟩
      | and i j =>
        simp only [ands] at h4
        simp only [slotsOp, valsAOp, List.map_cons, List.map_nil, List.cons.injEq, and_true] at f1
        refine ⟨_, ?_, rfl⟩
        have v0 : vget gc (S.gid * 2) = .ok (vt (2 * S.gid)) := by rw [h3, Nat.mul_comm, vget_rows vt (by omega)]
        have v1 : vget gc (S.gid * 2 + 1) = .ok (vt (2 * S.gid + 1)) := by rw [h3, Nat.mul_comm, vget_rows vt (by omega)]
        simp only [OnEva.alone, blindA, OnEva.step, v0, v1, bind, Except.bind, hget]
        rw [evaluates f1.1 f1.2]
        rfl
      | reveal p ws =>
        have hl : ws.map (OnEva.get (withBoth E P Q) ⟨S.gid, gc, pv, c, S.ws⟩) = ws.map (S.get E) := List.map_congr_left fun i _ => hget i
        simp only [OnEva.alone, blindA, OnEva.step, hl]
        cases p with
        | alice =>
          refine ⟨_, ?_, rfl⟩
          simp only [msgs, msgsOp, reduceCtorEq, if_false, List.nil_append, rev_alice, bind, Except.bind, List.append_nil]
          rfl
        | bob =>
          refine ⟨_, ?_, rfl⟩
          simp only [msgs, msgsOp, reduceCtorEq, if_false, if_true, rev_bob, bind, Except.bind, List.append_nil]
          rfl
        | pub =>
          refine ⟨_, ?_, rfl⟩
          have hp := rev_pub E S w (msgs E ra (evens va) (S.next E ra (evens va) (.reveal .pub ws)) (Circuit.next w (.reveal .pub ws)) ops) ws done
            (masks E ra (evens va) (S.next E ra (evens va) (.reveal .pub ws)) (Circuit.next w (.reveal .pub ws)) ops ++ more) pv (by rw [h5, List.append_assoc, masks, List.append_assoc]; rfl)
          simp only [msgs, msgsOp, reduceCtorEq, if_false, if_true, List.nil_append, h6, hp, bind, Except.bind]
          simp [outsOp, sentOp, masksOp, maskBits, Held.next]
          rfl
    obtain ⟨e', g1, g2⟩ := hstep
    have := ih e' (S.next E ra (evens va) op) (Circuit.next w op) (done ++ masksOp E S w op) M (by rw [g2]) (by rw [g2])
      (by cases op <;> simp [Held.next, Held.push, Circuit.next, Circuit.newWire, hw]) (by rw [g2]; exact h3)
      (by rw [next_gid, Nat.add_assoc, ← ands_cons]; exact h4) (by rw [g2]; refine h5.trans ?_; simp only [masks, List.append_assoc]) (by rw [g2, List.length_append, ← h6]) f3
    simp only [List.map_cons, OnEva.run, g1, bind, Except.bind, this]
    have ho : (outsOp w op).head?.toList = outsOp w op := by cases op <;> rfl
    rw [ho, g2]
    simp [outs, final, masks, sent, Nat.add_assoc]

theorem final_gid (E : Env) (ra W : Nat → Block) : ∀ (ops : List Op) (S : Held), (final E ra W S ops).gid = S.gid + ands ops
  | [], S => rfl
  | op :: ops, S => by rw [final, final_gid E ra W ops, next_gid, ands_cons op ops, Nat.add_assoc]

/-- The view of the evaluator with a function that fits. -/
theorem view_seen {E : Env} {P : Block → Block} {Q : Nat → Block} {ra va vt : Nat → Block} {d : Block} {ops₀ ops : List Op}
    (hs : List.Forall₂ SameShape ops₀ ops) (hf : Fits E P ra va vt (setDelta d) {} [] ops) (hq : Inputs Q ra (setDelta d) 0 (allInputs ops)) :
    ∃ f, (start d).run (withBoth E P Q) ops₀ = .ok f ∧ view (withBoth E P Q) d ops₀ ops = some (seen E ra (evens va) vt ops)
      ∧ f.eva.gc = (List.range (2 * ands ops)).map vt
      ∧ f.gen.outLabels = labels E ra (evens va) (setDelta d) {} [] ops
      ∧ asked (withBoth E P Q) (start d) [] ops = (slots E ra (evens va) {} ops).map (ptA E)
      ∧ EvaluatorViewOnline.hidden (withBoth E P Q) (start d) [] ops = (slots E ra (evens va) {} ops).map (ptH E (setDelta d)) := by
  have h0 : Sim E (withBoth E P Q) (start d) {} [] := by
    refine ⟨C16_delta d, rfl, rfl, rfl, rfl, rfl, fun i => ?_⟩
    simp [OffGen.get, Held.get, Circuit.get, start, evaConst, genConst, sel, withBoth]
  obtain ⟨f, r1, r2, r3, r4, r5, r6, r7⟩ := sim_run ops (start d) {} [] h0 hf hq
  obtain ⟨n', e1⟩ := record (f := f) [] ops (start d) (syncOnline f) {} [] h0 (replay_start _ d f r3) (by rw [List.append_nil]; exact r1) hf hq
  have hgc : f.eva.gc = (List.range (2 * ands ops)).map vt := by
    rw [r4, List.range_eq_range']; simp [start]
  have hpv : f.eva.pubValues = masks E ra (evens va) {} [] ops := by rw [r4]; simp [start]
  have e2 := eva_run (Q := Q) [] ops (syncOnline f).eva {} [] [] (2 * ands ops) rfl rfl rfl hgc (by simp) (by rw [List.append_nil]; exact hpv) rfl hf
  rw [← off_shape (withBoth E P Q) (start d) hs] at r1
  refine ⟨f, r1, ?_, hgc, by rw [r5]; simp [start], r6, r7⟩
  simp only [view, r1, e1, e2]
  have hst : f.eva = stored E ra (evens va) vt ops := by
    rw [r4]; simp [stored, start, List.range_eq_range']
  simp only [seen, Option.some.injEq, Prod.mk.injEq, true_and, hst, r2, and_true]
  simp [syncOnline, hst, stored, final_gid]

/-! ### The game: labels, rows and hash values are drawn, the offset is drawn independently of them -/

abbrev Var (N n : Nat) := Fin N ⊕ (Fin n ⊕ Fin n)

/-- A function, blocks and an offset. -/
abbrev Space (N n : Nat) := (Block → Block) × (Var N n → Block) × Block

def raOf {N n : Nat} (v : Var N n → Block) (k : Nat) : Block := if h : k < N then v (.inl ⟨k, h⟩) else 0
def vaOf {N n : Nat} (v : Var N n → Block) (s : Nat) : Block := if h : s < n then v (.inr (.inl ⟨s, h⟩)) else 0
def vtOf {N n : Nat} (v : Var N n → Block) (s : Nat) : Block := if h : s < n then v (.inr (.inr ⟨s, h⟩)) else 0

def slotsOf (E : Env) (ops : List Op) {N n : Nat} (v : Var N n → Block) : List (Block × Block) := slots E (raOf v) (evens (vaOf v)) {} ops

def slotOf (E : Env) (ops : List Op) {N n : Nat} (v : Var N n → Block) (s : Nat) : Block × Block := (slotsOf E ops v).getD s (0, 0)

/-- The points of the hash in the game, first those of the evaluator, then the others. -/
def pt (E : Env) (ops : List Op) {N n : Nat} (v : Var N n → Block) (d : Block) : Fin n ⊕ Fin n → Block
  | .inl s => ptA E (slotOf E ops v s)
  | .inr s => ptH E (setDelta d) (slotOf E ops v s)

/-- The function at these points. -/
def val (E : Env) (ops : List Op) {N n : Nat} (v : Var N n → Block) (d : Block) : Fin n ⊕ Fin n → Block
  | .inl s => (valsA E (raOf v) (vaOf v) (vtOf v) {} ops).getD s 0
  | .inr s => (valsH E (raOf v) (vaOf v) (vtOf v) (setDelta d) {} [] ops).getD s 0

/-- The garbler's draw that gives what was drawn in the game; the old values of the function at the points go where nothing is looked at. -/
noncomputable def toReal (E : Env) (ops : List Op) {N n : Nat} (g : Space N n) : Space N n :=
  (Function.extend (pt E ops g.2.1 g.2.2) (val E ops g.2.1 g.2.2) g.1,
    Sum.elim (fun k => g.2.1 (.inl k) ^^^ sel ((allInputs ops).getD k false) (setDelta g.2.2)) (g.1 ∘ pt E ops g.2.1 g.2.2), g.2.2)

/-- The environment of the garbler's draw. -/
def real (E : Env) {N n : Nat} (g : Space N n) : Env := draw E (g.1, fun k : Fin N => g.2.1 (.inl k))

theorem slots_length (E : Env) (ra W : Nat → Block) : ∀ (ops : List Op) (S : Held), (slots E ra W S ops).length = 2 * ands ops
  | [], _ => rfl
  | op :: ops, S => by
    rw [slots, List.length_append, slots_length E ra W ops, ands_cons op ops, Nat.mul_add]
    cases op <;> rfl

theorem valsA_length (E : Env) (ra va vt : Nat → Block) : ∀ (ops : List Op) (S : Held), (valsA E ra va vt S ops).length = 2 * ands ops
  | [], _ => rfl
  | op :: ops, S => by
    rw [valsA, List.length_append, valsA_length E ra va vt ops, ands_cons op ops, Nat.mul_add]
    cases op <;> rfl

theorem valsH_length (E : Env) (ra va vt : Nat → Block) (d : Block) : ∀ (ops : List Op) (S : Held) (w : List Bool), (valsH E ra va vt d S w ops).length = 2 * ands ops
  | [], _, _ => rfl
  | op :: ops, S, w => by
    rw [valsH, List.length_append, valsH_length E ra va vt d ops, ands_cons op ops, Nat.mul_add]
    cases op <;> rfl

theorem fits_toReal {E : Env} {ops : List Op} {N n : Nat} (hn : n = 2 * ands ops) (g : Space N n) (hp : Function.Injective (pt E ops g.2.1 g.2.2)) :
    Fits E (toReal E ops g).1 (raOf g.2.1) (vaOf g.2.1) (vtOf g.2.1) (setDelta g.2.2) {} [] ops := by
  subst hn
  constructor
  · apply List.ext_getElem
    · rw [List.length_map, slots_length, valsA_length]
    · intro s h1 h2
      rw [List.length_map, slots_length] at h1
      have := hp.extend_apply (val E ops g.2.1 g.2.2) g.1 (.inl ⟨s, h1⟩)
      have e : pt E ops g.2.1 g.2.2 (.inl ⟨s, h1⟩) = ptA E ((slots E (raOf g.2.1) (evens (vaOf g.2.1)) {} ops)[s]'(by rw [slots_length]; exact h1)) := by
        simp [pt, slotOf, slotsOf, slots_length, h1]
      rw [e] at this
      rw [List.getElem_map]
      refine this.trans ?_
      simp [val, valsA_length, h1]
  · apply List.ext_getElem
    · rw [List.length_map, slots_length, valsH_length]
    · intro s h1 h2
      rw [List.length_map, slots_length] at h1
      have := hp.extend_apply (val E ops g.2.1 g.2.2) g.1 (.inr ⟨s, h1⟩)
      have e : pt E ops g.2.1 g.2.2 (.inr ⟨s, h1⟩) = ptH E (setDelta g.2.2) ((slots E (raOf g.2.1) (evens (vaOf g.2.1)) {} ops)[s]'(by rw [slots_length]; exact h1)) := by
        simp [pt, slotOf, slotsOf, slots_length, h1]
      rw [e] at this
      rw [List.getElem_map]
      refine this.trans ?_
      simp [val, valsH_length, h1]

theorem inputs_toReal {E : Env} {ops : List Op} {N n : Nat} (hN : N = (allInputs ops).length) (g : Space N n) :
    Inputs (real E (toReal E ops g)).prg (raOf g.2.1) (setDelta g.2.2) 0 (allInputs ops) := by
  intro k hk
  rw [← hN] at hk
  simp [real, draw, withBoth, toReal, raOf, hk]

/-- The real run with the draw made in the game. -/
theorem real_toReal {E : Env} {ops₀ ops : List Op} {N n : Nat} (hn : n = 2 * ands ops) (hN : N = (allInputs ops).length) (hs : List.Forall₂ SameShape ops₀ ops)
    (g : Space N n) (hp : Function.Injective (pt E ops g.2.1 g.2.2)) :
    ∃ f, (start g.2.2).run (real E (toReal E ops g)) ops₀ = .ok f
      ∧ view (real E (toReal E ops g)) g.2.2 ops₀ ops = some (seen E (raOf g.2.1) (evens (vaOf g.2.1)) (vtOf g.2.1) ops)
      ∧ f.eva.gc = (List.range (2 * ands ops)).map (vtOf g.2.1)
      ∧ f.gen.outLabels = labels E (raOf g.2.1) (evens (vaOf g.2.1)) (setDelta g.2.2) {} [] ops
      ∧ asked (real E (toReal E ops g)) (start g.2.2) [] ops = (slotsOf E ops g.2.1).map (ptA E)
      ∧ EvaluatorViewOnline.hidden (real E (toReal E ops g)) (start g.2.2) [] ops = (slotsOf E ops g.2.1).map (ptH E (setDelta g.2.2)) :=
  view_seen hs (fits_toReal hn g hp) (inputs_toReal hN g)

/-- The labels of the gates can be read off. -/
theorem labels_inj (E : Env) (d : Block) : ∀ (ops : List Op) (ra W ra' W' : Nat → Block) (S S' : Held) (w : List Bool), S.gid = S'.gid →
    labels E ra W d S w ops = labels E ra' W' d S' w ops → ∀ g, S.gid ≤ g → g < S.gid + ands ops → W g = W' g
  | [], _, _, _, _, S, _, _, _, _, g, h1, h2 => by simp [ands] at h2; omega
  | op :: ops, ra, W, ra', W', S, S', w, h0, h, g, h1, h2 => by
    rw [labels, labels] at h
    have hl : (labelsOp W d S w op).length = (labelsOp W' d S' w op).length := by cases op <;> rfl
    obtain ⟨e1, e2⟩ := List.append_inj h hl
    rw [ands_cons op ops] at h2
    by_cases hg : S.gid + ands [op] ≤ g
    · exact labels_inj E d ops ra W ra' W' _ _ _ (by rw [next_gid, next_gid, h0]) e2 g (by rw [next_gid]; exact hg) (by rw [next_gid]; omega)
    · cases op with
      | and i j =>
        simp only [ands] at hg
        have : g = S.gid := by omega
        subst this
        simp only [labelsOp, List.cons.injEq, and_true, ← h0] at e1
        have := congrArg (· ^^^ sel (Circuit.get w i && Circuit.get w j) d) e1
        simpa only [xc'] using this
      | _ => simp [ands] at hg; omega

theorem odd_vals {E : Env} {P : Block → Block} {ra va vt : Nat → Block} : ∀ (ops : List Op) (S : Held),
    ((slots E ra (evens va) S ops).map fun x => P (ptA E x)) = valsA E ra va vt S ops →
    ∀ g, g < ands ops → (((slots E ra (evens va) S ops).map fun x => P (ptA E x)).getD (2 * g + 1) 0) = va (2 * (S.gid + g) + 1) := by
  intro ops
  induction ops with
  | nil => intro S _ g hg; simp [ands] at hg
  | cons op ops ih =>
    intro S h g hg
    rw [h, valsA]
    rw [slots, valsA, List.map_append] at h
    have hl : ((slotsOp E S op).map fun x => P (ptA E x)).length = (valsAOp E va vt S op).length := by cases op <;> rfl
    obtain ⟨-, h2⟩ := List.append_inj h hl
    have ih' := ih _ h2
    rw [h2] at ih'
    cases op with
    | and i j =>
      cases g with
      | zero => rfl
      | succ g =>
        simp only [ands] at hg
        have := ih' g (by omega)
        simp only [valsAOp, List.cons_append, List.nil_append]
        rw [show 2 * (g + 1) + 1 = 2 * g + 1 + 1 + 1 by omega, List.getD_cons_succ, List.getD_cons_succ, this]
        simp only [Held.next, Held.push]
        congr 2; omega
    | _ => exact ih' g hg

theorem raOf_ext {N n : Nat} {v v' : Var N n → Block} (h : ∀ k, v (.inl k) = v' (.inl k)) : raOf v = raOf v' := by
  funext k
  simp only [raOf, h]

/-- Different draws of the game give different draws of the garbler. -/
theorem toReal_inj {E : Env} {ops : List Op} {N n : Nat} (hn : n = 2 * ands ops) (hN : N = (allInputs ops).length) (g g' : Space N n)
    (hp : Function.Injective (pt E ops g.2.1 g.2.2)) (hp' : Function.Injective (pt E ops g'.2.1 g'.2.2)) (h : toReal E ops g = toReal E ops g') : g = g' := by
  obtain ⟨f, r1, -, r3, r4, -, -⟩ := real_toReal hn hN (List.forall₂_same.2 fun op _ => shape_refl op) g hp
  obtain ⟨f', r1', -, r3', r4', -, -⟩ := real_toReal hn hN (List.forall₂_same.2 fun op _ => shape_refl op) g' hp'
  have hf1 := (fits_toReal hn g hp).1
  have hf2 := (fits_toReal hn g' hp').1
  rw [← h] at r1' hf2
  obtain ⟨P, v, d⟩ := g
  obtain ⟨P', v', d'⟩ := g'
  simp only at r1 r3 r4 r1' r3' r4' hp hp' hf1 hf2
  have hd : d = d' := congrArg (fun x => x.2.2) h
  subst hd
  rw [r1] at r1'
  cases r1'
  have hE : Function.extend (pt E ops v d) (val E ops v d) P = Function.extend (pt E ops v' d) (val E ops v' d) P' := congrArg (fun x => x.1) h
  have hL := congrArg (fun x => x.2.1) h
  simp only [toReal] at hL
  have h1 : ∀ k, v (.inl k) = v' (.inl k) := by
    intro k
    have := congrFun hL (.inl k)
    simp only [Sum.elim_inl] at this
    have := congrArg (· ^^^ sel ((allInputs ops).getD k false) (setDelta d)) this
    simpa only [xc'] using this
  have hra := raOf_ext h1
  have hW : ∀ i, i < ands ops → vaOf v (2 * i) = vaOf v' (2 * i) := by
    intro i hi
    have := labels_inj E (setDelta d) ops _ _ _ _ {} {} [] rfl (r4.symm.trans r4') i (Nat.zero_le _) (by simpa using hi)
    exact this
  have ht : ∀ s, s < 2 * ands ops → vtOf v s = vtOf v' s := fun s hs => List.map_inj_left.1 (r3.symm.trans r3') s (List.mem_range.2 hs)
  have hev : evens (vaOf v) = evens (vaOf v') := by
    funext i
    by_cases hi : i < ands ops
    · exact hW i hi
    · simp only [evens, vaOf]
      rw [dif_neg (by omega), dif_neg (by omega)]
  have hsl : slotsOf E ops v = slotsOf E ops v' := by simp only [slotsOf, hra, hev]
  have hB : ∀ i, i < ands ops → vaOf v (2 * i + 1) = vaOf v' (2 * i + 1) := by
    intro i hi
    have a := odd_vals ops {} hf1 i hi
    have b := odd_vals ops {} hf2 i hi
    simp only [Nat.zero_add] at a b
    rw [← a, ← b]
    simp only [slotsOf] at hsl
    rw [hsl]
  have hv : v = v' := by
    funext x
    rcases x with k | s | s
    · exact h1 k
    · have : vaOf v s = vaOf v' s := by
        have hs := s.2
        rcases Nat.even_or_odd' s.1 with ⟨i, hi | hi⟩
        · rw [hi]; exact hW i (by omega)
        · rw [hi]; exact hB i (by omega)
      simpa [vaOf] using this
    · have := ht s (by omega)
      simpa [vtOf] using this
  subst hv
  have hP : P = P' := by
    have e : P ∘ pt E ops v d = P' ∘ pt E ops v d := by
      funext x
      exact congrFun hL (.inr x)
    rw [← extend_back hp (val E ops v d) P, hE, e, extend_back hp]
  subst hP
  rfl

end Verif.Props.EvaluatorBound
