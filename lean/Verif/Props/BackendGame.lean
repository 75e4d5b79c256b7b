import Verif.Props.EvaluatorAdvantage

/-!
How often labels or points of the hash coincide by accident in the ordinary backend (C69).  C17 and C62 exclude such runs; here they are counted, over all functions under
the hash, all labels of the inputs and all offsets.

Which wires are constants and which label is the sum of which others does not depend on what is drawn: it is computed beforehand (`Static`), every label as a set
of variables (inputs, gates, the fix point).  The game draws the labels the evaluator gets for inputs and gates, the rows of the tables and one hash value per gate;
the offset is drawn independently of them.  From these a function under the hash is made with which the garbler makes just these labels and rows.
-/

namespace Verif.Props.BackendBound
open Verif.Model Verif.Model.GC Verif.Lemmas Verif.Lemmas.Sampling
open Verif.Spec.Circuit (Party Op)
open Verif.Spec
open Verif.Props (NetInv Clean NoCoincidence net_step C16_delta pub_isPublic evaAnd_left evaAnd_right)
open Verif.Props.Direct (start)
open Verif.Props.EvaluatorView
open Verif.Props.EvaluatorBound (x0 xc xc')

/-! ### Wires as sets of variables -/

/-- A constant, or the sum of the variables in the bit mask `m`: bit 0 is the fix point, bits `3 k + 1`, `3 k + 2`, `3 k + 3` are input `k` of ALICE, input `k` of BOB, gate `k`. -/
inductive Sym where
  | pub (b : Bool)
  | lab (m : Nat)
deriving DecidableEq

/-- The wires so far, and the numbers of gates and inputs. -/
structure Static where
  ws : List Sym := []
  gid : Nat := 0
  ka : Nat := 0
  kb : Nat := 0

def Static.get (S : Static) (i : Nat) : Sym := S.ws.getD i (.pub false)
def Static.push (S : Static) (x : Sym) : Static := { S with ws := S.ws ++ [x] }

def symNot : Sym → Sym
  | .pub b => .pub !b
  | .lab m => .lab m

def symXor : Sym → Sym → Sym
  | .pub a, .pub b => .pub (a != b)
  | .pub _, .lab m => .lab m
  | .lab m, .pub _ => .lab m
  | .lab a, .lab b => .lab (if a ^^^ b = 0 then 1 else a ^^^ b)

def Static.and (S : Static) : Sym → Sym → Static
  | .lab _, .lab _ => Static.push { S with gid := S.gid + 1 } (.lab (2 ^ (3 * S.gid + 3)))
  | .pub a, .pub b => S.push (.pub (a && b))
  | .pub a, .lab m => S.push (if a then .lab m else .pub false)
  | .lab m, .pub a => S.push (if a then .lab m else .pub false)

def Static.next (S : Static) : Op → Static
  | .pub b => S.push (.pub b)
  | .inA _ => Static.push { S with ka := S.ka + 1 } (.lab (2 ^ (3 * S.ka + 1)))
  | .inB _ => Static.push { S with kb := S.kb + 1 } (.lab (2 ^ (3 * S.kb + 2)))
  | .and i j => S.and (S.get i) (S.get j)
  | .xor i j => S.push (symXor (S.get i) (S.get j))
  | .not i => S.push (symNot (S.get i))
  | .reveal _ _ => S

def Static.run (S : Static) : List Op → Static
  | [] => S
  | op :: ops => (S.next op).run ops

/-- All wires of a program. -/
def wiring (ops : List Op) : Static := Static.run {} ops

/-- Labels of inputs and gates, rows of the tables, hash values. -/
structure Vals where
  ra : Nat → Block
  rb : Nat → Block
  va : Nat → Block
  vt : Nat → Block

/-- The value of variable `j`. -/
def Vals.var (fix : Block) (V : Vals) (j : Nat) : Block :=
  if j = 0 then fix else if j % 3 = 1 then V.ra (j / 3) else if j % 3 = 2 then V.rb (j / 3) else V.va (2 * (j / 3 - 1))

/-- The sum of the variables of a mask. -/
def Vals.sum (fix : Block) (V : Vals) (m : Nat) : Block := lin (List.range (m + 1)) m.testBit (V.var fix)

/-- The label of a wire. -/
def Vals.sym (fix : Block) (V : Vals) : Sym → Block
  | .pub b => publicLabel b
  | .lab m => V.sum fix m

theorem testBit_big {m j : Nat} (h : m < j) : m.testBit j = false := Nat.testBit_lt_two_pow (Nat.lt_trans h Nat.lt_two_pow_self)

theorem lin_append {X : Type} (xs ys : List X) (c : X → Bool) (a : X → Block) : lin (xs ++ ys) c a = lin xs c a ^^^ lin ys c a := by
  induction xs with
  | nil => simp [lin]
  | cons x xs ih => simp only [lin, List.cons_append, List.foldr_cons] at ih ⊢; rw [ih]; ac_rfl

theorem sum_range (fix : Block) (V : Vals) (m : Nat) : ∀ k, V.sum fix m = lin (List.range (m + 1 + k)) m.testBit (V.var fix)
  | 0 => rfl
  | k + 1 => by
    rw [← Nat.add_assoc, List.range_succ, lin_append, ← sum_range fix V m k, lin_none [m + 1 + k] _ _ (by
      intro x hx
      rw [List.mem_singleton] at hx
      subst hx
      exact testBit_big (by omega))]
    exact (x0 _).symm

theorem sum_le {m M : Nat} (h : m ≤ M) (fix : Block) (V : Vals) : V.sum fix m = lin (List.range (M + 1)) m.testBit (V.var fix) := by
  rw [sum_range fix V m (M - m)]
  congr 2; omega

theorem sum_xor (fix : Block) (V : Vals) (a b : Nat) : V.sum fix (a ^^^ b) = V.sum fix a ^^^ V.sum fix b := by
  have hx : a ^^^ b ≤ (a ^^^ b) + a + b := by omega
  rw [sum_le hx, sum_le (show a ≤ (a ^^^ b) + a + b by omega), sum_le (show b ≤ (a ^^^ b) + a + b by omega), ← lin_bne]
  congr 1
  funext j
  rw [Nat.testBit_xor]

theorem sum_zero (fix : Block) (V : Vals) : V.sum fix 0 = 0 := lin_none _ _ _ fun x _ => Nat.zero_testBit x

theorem sum_bit (fix : Block) (V : Vals) (j : Nat) : V.sum fix (2 ^ j) = V.var fix j := by
  have : (2 ^ j).testBit = fun y => decide (y = j) := by
    funext y
    rw [Nat.testBit_two_pow]
    by_cases h : j = y
    · simp [h]
    · simp [h, Ne.symm h]
  rw [Vals.sum, this, lin_single _ List.nodup_range j (by
    rw [List.mem_range]
    exact Nat.lt_succ_of_lt Nat.lt_two_pow_self)]

theorem sum_a (fix : Block) (V : Vals) (k : Nat) : V.sum fix (2 ^ (3 * k + 1)) = V.ra k := by
  rw [sum_bit, Vals.var, if_neg (by omega), if_pos (by omega)]; congr 1; omega
theorem sum_b (fix : Block) (V : Vals) (k : Nat) : V.sum fix (2 ^ (3 * k + 2)) = V.rb k := by
  rw [sum_bit, Vals.var, if_neg (by omega), if_neg (by omega), if_pos (by omega)]; congr 1; omega
theorem sum_g (fix : Block) (V : Vals) (k : Nat) : V.sum fix (2 ^ (3 * k + 3)) = V.va (2 * k) := by
  rw [sum_bit, Vals.var, if_neg (by omega), if_neg (by omega), if_neg (by omega)]; congr 2; omega
theorem sum_fix (fix : Block) (V : Vals) : V.sum fix 1 = fix := by
  rw [show (1 : Nat) = 2 ^ 0 from rfl, sum_bit]; rfl

/-! ### The gates -/

/-- Masks and tweaks of the hash in a gate. -/
def slotsOp (S : Static) : Op → List (Nat × Block)
  | .and i j =>
    match S.get i, S.get j with
    | .lab a, .lab b => [(a, tweak1 S.gid), (b, tweak2 S.gid)]
    | _, _ => []
  | _ => []

def slots (S : Static) : List Op → List (Nat × Block)
  | [] => []
  | op :: ops => slotsOp S op ++ slots (S.next op) ops

/-- The point of the label that is held, and of the other one. -/
def ptA (E : Env) (V : Vals) (x : Nat × Block) : Block := E.sigma (V.sum E.fixPoint x.1) ^^^ x.2
def ptH (E : Env) (V : Vals) (d : Block) (x : Nat × Block) : Block := E.sigma (V.sum E.fixPoint x.1 ^^^ d) ^^^ x.2

/-- The hash values of the labels held in gate `g`. -/
def hB (E : Env) (V : Vals) (g b : Nat) : Block := V.va (2 * g + 1) ^^^ ptA E V (b, tweak2 g)
def hA (E : Env) (V : Vals) (g a b : Nat) : Block :=
  V.va (2 * g) ^^^ hB E V g b ^^^ sel (lsb (V.sum E.fixPoint a)) (V.vt (2 * g)) ^^^ sel (lsb (V.sum E.fixPoint b)) (V.vt (2 * g + 1))
    ^^^ sel (lsb (V.sum E.fixPoint b)) (V.sum E.fixPoint a)

def valsAOp (E : Env) (V : Vals) (S : Static) : Op → List Block
  | .and i j =>
    match S.get i, S.get j with
    | .lab a, .lab b => [hA E V S.gid a b ^^^ ptA E V (a, tweak1 S.gid), V.va (2 * S.gid + 1)]
    | _, _ => []
  | _ => []

def valsHOp (E : Env) (V : Vals) (d : Block) (S : Static) (w : List Bool) : Op → List Block
  | .and i j =>
    match S.get i, S.get j with
    | .lab a, .lab b => [hA E V S.gid a b ^^^ V.vt (2 * S.gid) ^^^ sel (lsb (V.sum E.fixPoint b) != Circuit.get w j) d ^^^ ptH E V d (a, tweak1 S.gid),
        hB E V S.gid b ^^^ V.vt (2 * S.gid + 1) ^^^ V.sum E.fixPoint a ^^^ sel (Circuit.get w i) d ^^^ ptH E V d (b, tweak2 S.gid)]
    | _, _ => []
  | _ => []

def valsA (E : Env) (V : Vals) (S : Static) : List Op → List Block
  | [] => []
  | op :: ops => valsAOp E V S op ++ valsA E V (S.next op) ops

def valsH (E : Env) (V : Vals) (d : Block) (S : Static) (w : List Bool) : List Op → List Block
  | [] => []
  | op :: ops => valsHOp E V d S w op ++ valsH E V d (S.next op) (Circuit.next w op) ops

/-- The messages of the garbler. -/
def msgsOp (E : Env) (V : Vals) (S : Static) (w : List Bool) : Op → List Msg
  | .and i j =>
    match S.get i, S.get j with
    | .lab _, .lab _ => [.blk (V.vt (2 * S.gid)), .blk (V.vt (2 * S.gid + 1))]
    | _, _ => []
  | .reveal p ws => if p = .alice then [] else ws.flatMap fun i =>
      match S.get i with
      | .lab m => [.bit (lsb (V.sum E.fixPoint m) != Circuit.get w i)]
      | .pub _ => []
  | _ => []

def msgs (E : Env) (V : Vals) (S : Static) (w : List Bool) : List Op → List Msg
  | [] => []
  | op :: ops => msgsOp E V S w op ++ msgs E V (S.next op) (Circuit.next w op) ops

/-- The environment with another function and other labels of the inputs. -/
def withAll (E : Env) (P : Block → Block) (Q K : Nat → Block) : Env := { E with perm := P, prg := Q, cotK := K }

/-- The evaluator makes the label drawn. -/
theorem evaluates {E : Env} {P : Block → Block} {Q K : Nat → Block} {V : Vals} {g a b : Nat}
    (h1 : P (ptA E V (a, tweak1 g)) = hA E V g a b ^^^ ptA E V (a, tweak1 g)) (h2 : P (ptA E V (b, tweak2 g)) = V.va (2 * g + 1)) :
    evalGate (withAll E P Q K) (V.sum E.fixPoint a) (V.sum E.fixPoint b) (V.vt (2 * g), V.vt (2 * g + 1)) g = V.va (2 * g) :=
  EvaluatorBound.evaluates (E := E) (P := P) (Q := Q) (va := V.va) (vt := V.vt) (S := ⟨[V.sum E.fixPoint a, V.sum E.fixPoint b], g, 0⟩) (i := 0) (j := 1) h1 h2

/-- The garbler makes the rows and the label drawn. -/
theorem gate {E : Env} {P : Block → Block} {Q K : Nat → Block} {V : Vals} {g a b : Nat} {x y : Bool} {d : Block} (hd : lsb d = true)
    (h1 : P (ptA E V (a, tweak1 g)) = hA E V g a b ^^^ ptA E V (a, tweak1 g)) (h2 : P (ptA E V (b, tweak2 g)) = V.va (2 * g + 1))
    (h3 : P (ptH E V d (a, tweak1 g)) = hA E V g a b ^^^ V.vt (2 * g) ^^^ sel (lsb (V.sum E.fixPoint b) != y) d ^^^ ptH E V d (a, tweak1 g))
    (h4 : P (ptH E V d (b, tweak2 g)) = hB E V g b ^^^ V.vt (2 * g + 1) ^^^ V.sum E.fixPoint a ^^^ sel x d ^^^ ptH E V d (b, tweak2 g)) :
    garble (withAll E P Q K) (V.sum E.fixPoint a ^^^ sel x d) (V.sum E.fixPoint a ^^^ sel x d ^^^ d) (V.sum E.fixPoint b ^^^ sel y d)
      (V.sum E.fixPoint b ^^^ sel y d ^^^ d) d g = (V.va (2 * g) ^^^ sel (x && y) d, V.vt (2 * g), V.vt (2 * g + 1)) :=
  EvaluatorBound.gate (E := E) (P := P) (Q := Q) (va := V.va) (vt := V.vt) (S := ⟨[V.sum E.fixPoint a, V.sum E.fixPoint b], g, 0⟩) (w := [x, y]) hd (i := 0) (j := 1)
    h1 h2 h3 h4

/-! ### One operation of the run -/

/-- No secret wire has the block of a constant as one of its labels. -/
def Calm (E : Env) (V : Vals) (d : Block) (S : Static) : Prop := ∀ m, .lab m ∈ S.ws → Clear d (V.sum E.fixPoint m)

/-- A run and its wires as computed beforehand. -/
structure Sim (E : Env) (V : Vals) (n : Net) (S : Static) (w : List Bool) : Prop where
  inv : Inv n w
  ws : n.eva.wires = S.ws.map (V.sym E.fixPoint)
  gid : n.gen.gid = S.gid
  ka : n.gen.prgPos = S.ka
  kb : n.gen.cotPos = S.kb

theorem Sim.get {E : Env} {V : Vals} {n : Net} {S : Static} {w : List Bool} (h : Sim E V n S w) (i : Nat) : n.eva.get i = V.sym E.fixPoint (S.get i) := by
  rw [Eva.get, Static.get, h.ws, show zeroB = V.sym E.fixPoint (.pub false) from rfl, List.getD_map]

theorem get_mem {S : Static} {i m : Nat} (h : S.get i = .lab m) : .lab m ∈ S.ws := by
  simp only [Static.get, List.getD_eq_getElem?_getD] at h
  cases hx : S.ws[i]? with
  | none => rw [hx] at h; cases h
  | some x => rw [hx] at h; rw [← h]; exact List.mem_of_getElem? hx

/-- What a symbol says of its block. -/
def Honest (fix : Block) (V : Vals) (d : Block) : Sym → Prop
  | .pub _ => True
  | .lab m => Clear d (V.sum fix m)

theorem Calm.get {E : Env} {V : Vals} {d : Block} {S : Static} (h : Calm E V d S) (i : Nat) : Honest E.fixPoint V d (S.get i) := by
  cases hx : S.get i with
  | pub b => trivial
  | lab m => exact h m (get_mem hx)

theorem not_sym {fix : Block} {V : Vals} {d : Block} {x : Sym} (h : Honest fix V d x) : evaNot (V.sym fix x) = V.sym fix (symNot x) := by
  cases x with
  | pub b => cases b <;> rfl
  | lab m =>
    obtain ⟨a1, a2⟩ := isPublic_false h.1
    simp only [Vals.sym, symNot, evaNot, a1, a2, Bool.false_eq_true, if_false]

theorem xor_sym {E : Env} {V : Vals} {d : Block} {x y : Sym} (hx : Honest E.fixPoint V d x) (hy : Honest E.fixPoint V d y)
    (hxy : Honest E.fixPoint V d (symXor x y)) : evaXor E (V.sym E.fixPoint x) (V.sym E.fixPoint y) = V.sym E.fixPoint (symXor x y) := by
  cases x with
  | pub a =>
    cases y with
    | pub b => cases a <;> cases b <;> rfl
    | lab m =>
      obtain ⟨a1, a2⟩ := isPublic_false hy.1
      cases a <;> simp only [Vals.sym, symXor, publicLabel, evaXor, evaNot, a1, a2, Bool.false_eq_true, if_false, if_true, isOne_zeroB, isZero_zeroB, isOne_oneB]
  | lab a =>
    cases y with
    | pub b =>
      obtain ⟨a1, a2⟩ := isPublic_false hx.1
      cases b <;> simp only [Vals.sym, symXor, publicLabel, evaXor, evaNot, a1, a2, Bool.false_eq_true, if_false, if_true, isOne_zeroB, isZero_zeroB, isOne_oneB]
    | lab b =>
      have e1 : evaXor E (V.sum E.fixPoint a) (V.sum E.fixPoint b) = if isZero (V.sum E.fixPoint (a ^^^ b)) then E.fixPoint else V.sum E.fixPoint (a ^^^ b) := by
        rw [evaXor_secret hx.1 hy.1, sum_xor]
      show evaXor E (V.sum E.fixPoint a) (V.sum E.fixPoint b) = V.sum E.fixPoint (if a ^^^ b = 0 then 1 else a ^^^ b)
      rw [e1]
      by_cases h0 : a ^^^ b = 0
      · rw [if_pos h0, h0, sum_zero, sum_fix]; rfl
      · rw [if_neg h0]
        simp only [symXor, if_neg h0, Honest] at hxy
        rw [(isPublic_false hxy.1).1]; rfl

theorem Sim.secret {E : Env} {V : Vals} {n : Net} {S : Static} {w : List Bool} (h : Sim E V n S w) (hc : Calm E V n.gen.delta S) {i m : Nat}
    (hi : S.get i = .lab m) : n.eva.get i = V.sum E.fixPoint m ∧ isPublic (n.eva.get i) = false
      ∧ n.gen.get i = V.sum E.fixPoint m ^^^ sel (Circuit.get w i) n.gen.delta ∧ isPublic (n.gen.get i) = false := by
  have e := h.get i
  rw [hi] at e
  have e : n.eva.get i = V.sum E.fixPoint m := e
  have hp : isPublic (n.eva.get i) = false := by rw [e]; exact (hc m (get_mem hi)).1
  have hg := (h.inv.rel i).gen hp
  rw [e] at hg
  exact ⟨e, hp, hg, by rw [(h.inv.rel i).pub_iff]; exact hp⟩

theorem Sim.public {E : Env} {V : Vals} {n : Net} {S : Static} {w : List Bool} (h : Sim E V n S w) {i : Nat} {b : Bool}
    (hi : S.get i = .pub b) : n.eva.get i = publicLabel b ∧ isPublic (n.eva.get i) = true ∧ isPublic (n.gen.get i) = true := by
  have e := h.get i
  rw [hi] at e
  have e : n.eva.get i = publicLabel b := e
  have hp : isPublic (n.eva.get i) = true := by rw [e]; exact pub_isPublic b
  exact ⟨e, hp, by rw [(h.inv.rel i).pub_iff]; exact hp⟩

/-- What the function and the labels of the inputs have to be for one operation. -/
structure FitsOp (E : Env) (P : Block → Block) (Q K : Nat → Block) (V : Vals) (d : Block) (S : Static) (w : List Bool) (op : Op) : Prop where
  asked : ((slotsOp S op).map fun x => P (ptA E V x)) = valsAOp E V S op
  hidden : ((slotsOp S op).map fun x => P (ptH E V d x)) = valsHOp E V d S w op
  alice : ∀ b, op = .inA b → Q S.ka = V.ra S.ka
  bob : ∀ b, op = .inB b → K S.kb = V.rb S.kb ^^^ sel (E.cotR S.kb) d

theorem mem_push (S : Static) (x : Sym) : x ∈ (S.push x).ws := by simp [Static.push]

theorem sim_gate {E : Env} {P : Block → Block} {Q K : Nat → Block} {V : Vals} {n : Net} {S : Static} {w : List Bool} (h : Sim E V n S w)
    (hc : Calm E V n.gen.delta S) {i j a b : Nat} (hi : S.get i = .lab a) (hj : S.get j = .lab b) (hf : FitsOp E P Q K V n.gen.delta S w (.and i j)) :
    (garble (withAll E P Q K) (n.gen.get i) (n.gen.get i ^^^ n.gen.delta) (n.gen.get j) (n.gen.get j ^^^ n.gen.delta) n.gen.delta n.gen.gid).2
        = (V.vt (2 * S.gid), V.vt (2 * S.gid + 1))
      ∧ evalGate (withAll E P Q K) (n.eva.get i) (n.eva.get j) (V.vt (2 * S.gid), V.vt (2 * S.gid + 1)) n.gen.gid = V.va (2 * S.gid) := by
  obtain ⟨i1, -, i3, -⟩ := h.secret hc hi
  obtain ⟨j1, -, j3, -⟩ := h.secret hc hj
  have hA := hf.asked
  have hH := hf.hidden
  simp only [slotsOp, valsAOp, valsHOp, hi, hj, List.map_cons, List.map_nil, List.cons.injEq, and_true] at hA hH
  rw [i1, j1, i3, j3, h.gid, gate h.inv.delta hA.1 hA.2 hH.1 hH.2]
  exact ⟨rfl, evaluates hA.1 hA.2⟩

theorem sim_apart {E : Env} {P : Block → Block} {Q K : Nat → Block} {V : Vals} {n : Net} {S : Static} {w : List Bool} (h : Sim E V n S w)
    (hc : Calm E V n.gen.delta S) {op : Op} (hn : Calm E V n.gen.delta (S.next op)) (hf : FitsOp E P Q K V n.gen.delta S w op) :
    Apart (withAll E P Q K) n op := by
  cases op with
  | pub b => trivial
  | not i => trivial
  | reveal p ws => trivial
  | inA b =>
    have := hn _ (mem_push _ _)
    rw [sum_a] at this
    show Clear n.gen.delta (Q n.gen.prgPos)
    rw [h.ka, hf.alice b rfl]
    exact this
  | inB b =>
    have := hn _ (mem_push _ _)
    rw [sum_b] at this
    show Clear n.gen.delta (K n.gen.cotPos)
    rw [h.kb, hf.bob b rfl]
    exact this.shift _
  | and i j =>
    intro pi pj
    cases hi : S.get i with
    | pub a => rw [(h.public hi).2.1] at pi; cases pi
    | lab a =>
      cases hj : S.get j with
      | pub b => rw [(h.public hj).2.1] at pj; cases pj
      | lab b =>
        obtain ⟨g1, g2⟩ := sim_gate h hc hi hj hf
        rw [g1, g2]
        have hn' : Calm E V n.gen.delta (S.and (S.get i) (S.get j)) := hn
        rw [hi, hj] at hn'
        have := hn' _ (mem_push _ _)
        rw [sum_g] at this
        exact this
  | xor i j =>
    intro pi pj
    cases hi : S.get i with
    | pub a => rw [(h.public hi).2.1] at pi; cases pi
    | lab a =>
      cases hj : S.get j with
      | pub b => rw [(h.public hj).2.1] at pj; cases pj
      | lab b =>
        have hx := hn _ (show Sym.lab (if a ^^^ b = 0 then 1 else a ^^^ b) ∈ (S.next (.xor i j)).ws by
          have := mem_push S (symXor (S.get i) (S.get j))
          show _ ∈ (S.push (symXor (S.get i) (S.get j))).ws
          rw [hi, hj] at this ⊢
          exact this)
        have e : evaXor (withAll E P Q K) (n.eva.get i) (n.eva.get j) = V.sum E.fixPoint (if a ^^^ b = 0 then 1 else a ^^^ b) := by
          rw [h.get i, h.get j, hi, hj]
          exact xor_sym (E := E) (d := n.gen.delta) (x := .lab a) (y := .lab b) (by have := hc.get i; rwa [hi] at this) (by have := hc.get j; rwa [hj] at this) hx
        refine ⟨?_, by rw [e]; exact hx⟩
        rw [(h.secret hc hi).1, (h.secret hc hj).1, ← sum_xor]
        intro hd
        by_cases h0 : a ^^^ b = 0
        · rw [h0, sum_zero] at hd
          exact sel_ne h.inv.delta hd.symm
        · rw [if_neg h0, hd] at hx
          have := hx.2
          rw [BitVec.xor_self] at this
          exact absurd this (by decide)

theorem sim_send {E : Env} {P : Block → Block} {Q K : Nat → Block} {V : Vals} {n : Net} {S : Static} {w : List Bool} (h : Sim E V n S w)
    (hc : Calm E V n.gen.delta S) {op : Op} (hf : FitsOp E P Q K V n.gen.delta S w op) : (n.gen.send (withAll E P Q K) op).2 = msgsOp E V S w op := by
  cases op with
  | and i j =>
    simp only [Gen.send, msgsOp]
    cases hi : S.get i with
    | pub a => rw [genAnd_public (by rw [(h.public hi).2.2]; rfl)]
    | lab a =>
      cases hj : S.get j with
      | pub b => rw [genAnd_public (by rw [(h.public hj).2.2, Bool.or_true])]
      | lab b =>
        rw [genAnd_secret (h.secret hc hi).2.2.2 (h.secret hc hj).2.2.2, (sim_gate h hc hi hj hf).1]
  | reveal p ws =>
    simp only [Gen.send, msgsOp]
    rw [revealSend_eq p _ h.inv.delta _ _ _ (rel_wires h.inv.toNetInv ws) (by simp)]
    by_cases hp : p = .alice
    · rw [if_pos hp, if_pos hp]
    · rw [if_neg hp, if_neg hp]
      induction ws with
      | nil => rfl
      | cons i ws ih =>
        simp only [List.map_cons, List.zip_cons_cons, List.filter_cons, List.flatMap_cons]
        have ih := ih ⟨rfl, rfl, (fun b hb => by cases hb), (fun b hb => by cases hb)⟩
        cases hi : S.get i with
        | pub a =>
          rw [(h.public hi).2.1]
          simpa using ih
        | lab a =>
          rw [(h.secret hc hi).2.1, (h.secret hc hi).1]
          simpa using ih
  | _ => rfl

theorem sim_points {E : Env} {P : Block → Block} {Q K : Nat → Block} {V : Vals} {n : Net} {S : Static} {w : List Bool} (h : Sim E V n S w)
    (hc : Calm E V n.gen.delta S) (op : Op) : askedOp (withAll E P Q K) n op = (slotsOp S op).map (ptA E V)
      ∧ hiddenOp (withAll E P Q K) n op = (slotsOp S op).map (ptH E V n.gen.delta) := by
  cases op with
  | and i j =>
    simp only [askedOp, hiddenOp, slotsOp]
    cases hi : S.get i with
    | pub a => rw [(h.public hi).2.1]; exact ⟨rfl, rfl⟩
    | lab a =>
      cases hj : S.get j with
      | pub b => rw [(h.public hj).2.1, Bool.or_true]; exact ⟨rfl, rfl⟩
      | lab b =>
        rw [(h.secret hc hi).2.1, (h.secret hc hj).2.1, (h.secret hc hi).1, (h.secret hc hj).1, h.gid]
        exact ⟨rfl, rfl⟩
  | _ => exact ⟨rfl, rfl⟩

/-- The evaluator does the same with the labels drawn and any function that agrees where it asks. -/
theorem sim_eva {E : Env} {P P' : Block → Block} {Q K : Nat → Block} {V : Vals} {n : Net} {S : Static} {w : List Bool} (h : Sim E V n S w)
    (hc : Calm E V n.gen.delta S) {op : Op} (hf : FitsOp E P Q K V n.gen.delta S w op) (hP : ∀ x ∈ slotsOp S op, P' (ptA E V x) = P (ptA E V x)) (q : List Msg) :
    n.eva.step (withAll E P Q K) (cotM (withAll E P Q K) n.gen.delta) E.cotR op q = n.eva.step (withAll E P' V.ra V.rb) V.rb E.cotR op q := by
  cases op with
  | inA b =>
    simp only [Eva.step, withAll]
    rw [h.inv.prg, h.ka, hf.alice b rfl]
  | inB b =>
    simp only [Eva.step, withAll, cotM]
    rw [h.inv.cot, h.kb, hf.bob b rfl, xc']
  | and i j =>
    simp only [Eva.step]
    cases hi : S.get i with
    | pub a => rw [evaAnd_public (E' := withAll E P' V.ra V.rb) (by rw [(h.public hi).2.1]; rfl)]
    | lab a =>
      cases hj : S.get j with
      | pub b => rw [evaAnd_public (E' := withAll E P' V.ra V.rb) (by rw [(h.public hj).2.1, Bool.or_true])]
      | lab b =>
        obtain ⟨a1, a2⟩ := isPublic_false (h.secret hc hi).2.1
        obtain ⟨b1, b2⟩ := isPublic_false (h.secret hc hj).2.1
        simp only [evaAnd, a1, a2, b1, b2, Bool.or_self, Bool.false_eq_true, if_false, bind, Except.bind]
        cases recvTable q with
        | error x => rfl
        | ok x =>
          simp only [slotsOp, hi, hj, List.mem_cons, List.not_mem_nil, or_false, forall_eq_or_imp, forall_eq] at hP
          have e : evalGate (withAll E P Q K) (n.eva.get i) (n.eva.get j) x.1 n.eva.gid = evalGate (withAll E P' V.ra V.rb) (n.eva.get i) (n.eva.get j) x.1 n.eva.gid := by
            have ea : (withAll E P Q K).h (n.eva.get i) (tweak1 n.eva.gid) = (withAll E P' V.ra V.rb).h (n.eva.get i) (tweak1 n.eva.gid) := by
              rw [(h.secret hc hi).1, h.inv.gid, h.gid]
              show P (ptA E V (a, tweak1 S.gid)) ^^^ _ = P' (ptA E V (a, tweak1 S.gid)) ^^^ _
              rw [hP.1]; rfl
            have eb : (withAll E P Q K).h (n.eva.get j) (tweak2 n.eva.gid) = (withAll E P' V.ra V.rb).h (n.eva.get j) (tweak2 n.eva.gid) := by
              rw [(h.secret hc hj).1, h.inv.gid, h.gid]
              show P (ptA E V (b, tweak2 S.gid)) ^^^ _ = P' (ptA E V (b, tweak2 S.gid)) ^^^ _
              rw [hP.2]; rfl
            simp only [evalGate, ea, eb]
          simp only [e]
  | _ => rfl

theorem Sim.next {E : Env} {V : Vals} {n' : Net} {T : Static} {w' : List Bool} (h : Inv n' w') (hw : n'.eva.wires = T.ws.map (V.sym E.fixPoint))
    (hg : n'.eva.gid = T.gid) (ha : n'.eva.prgPos = T.ka) (hb : n'.eva.cotPos = T.kb) : Sim E V n' T w' :=
  ⟨h, hw, h.gid ▸ hg, h.prg ▸ ha, h.cot ▸ hb⟩

theorem sim_step {E : Env} {P : Block → Block} {Q K : Nat → Block} {V : Vals} {n : Net} {S : Static} {w : List Bool} (h : Sim E V n S w)
    (hc : Calm E V n.gen.delta S) {op : Op} (hn : Calm E V n.gen.delta (S.next op)) (hf : FitsOp E P Q K V n.gen.delta S w op) :
    ∃ o n', n.step (withAll E P Q K) op = .ok (o, n') ∧ Sim E V n' (S.next op) (Circuit.next w op) ∧ n'.gen.delta = n.gen.delta := by
  obtain ⟨o, n', e1, i1, d1⟩ := inv_step h.inv (sim_apart h hc hn hf)
  refine ⟨o, n', e1, ?_, d1⟩
  obtain ⟨eb, gb, s, s1, -⟩ := step_ok e1
  rw [sim_send h hc hf, h.inv.toEva, List.nil_append] at s1
  have push : ∀ (T : Static) (x : Block) (y : Sym) (e : Eva), T.ws = S.ws → e.wires = n.eva.wires → x = V.sym E.fixPoint y →
      (e.push x).wires = (T.push y).ws.map (V.sym E.fixPoint) := by
    intro T x y e h1 h2 h3
    simp [Eva.push, Static.push, h1, h2, h3, h.ws]
  have hgid := h.inv.gid.trans h.gid
  have hka := h.inv.prg.trans h.ka
  have hkb := h.inv.cot.trans h.kb
  cases op with
  | pub b =>
    simp only [Eva.step, Except.ok.injEq, Prod.mk.injEq] at s1
    refine Sim.next i1 ?_ ?_ ?_ ?_ <;> rw [← s1.2.1]
    · exact push S _ (.pub b) _ rfl rfl rfl
    · exact hgid
    · exact hka
    · exact hkb
  | inA b =>
    simp only [Eva.step, Except.ok.injEq, Prod.mk.injEq] at s1
    refine Sim.next i1 ?_ ?_ ?_ ?_ <;> rw [← s1.2.1]
    · refine push _ _ _ _ rfl rfl ?_
      show Q n.eva.prgPos = V.sum E.fixPoint _
      rw [sum_a, hka, hf.alice b rfl]
    · exact hgid
    · exact congrArg (· + 1) hka
    · exact hkb
  | inB b =>
    simp only [Eva.step, Except.ok.injEq, Prod.mk.injEq] at s1
    refine Sim.next i1 ?_ ?_ ?_ ?_ <;> rw [← s1.2.1]
    · refine push _ _ _ _ rfl rfl ?_
      show K n.eva.cotPos ^^^ sel (E.cotR n.eva.cotPos) n.gen.delta = V.sum E.fixPoint _
      rw [sum_b, hkb, hf.bob b rfl, xc']
    · exact hgid
    · exact hka
    · exact congrArg (· + 1) hkb
  | xor i j =>
    simp only [Eva.step, Except.ok.injEq, Prod.mk.injEq] at s1
    refine Sim.next i1 ?_ ?_ ?_ ?_ <;> rw [← s1.2.1]
    · refine push S _ _ _ rfl rfl ?_
      rw [h.get i, h.get j]
      refine xor_sym (E := E) (d := n.gen.delta) (hc.get i) (hc.get j) ?_
      cases hx : symXor (S.get i) (S.get j) with
      | pub b => trivial
      | lab m => exact hn m (by rw [← hx]; exact mem_push _ _)
    · exact hgid
    · exact hka
    · exact hkb
  | not i =>
    simp only [Eva.step, Except.ok.injEq, Prod.mk.injEq] at s1
    refine Sim.next i1 ?_ ?_ ?_ ?_ <;> rw [← s1.2.1]
    · refine push S _ _ _ rfl rfl ?_
      rw [h.get i]
      exact not_sym (hc.get i)
    · exact hgid
    · exact hka
    · exact hkb
  | reveal p ws =>
    simp only [Eva.step, bind, Except.bind] at s1
    split at s1
    · cases s1
    · simp only [Except.ok.injEq, Prod.mk.injEq] at s1
      refine Sim.next i1 ?_ ?_ ?_ ?_ <;> rw [← s1.2.1]
      · exact h.ws
      · exact hgid
      · exact hka
      · exact hkb
  | and i j =>
    show Sim E V n' (S.and (S.get i) (S.get j)) _
    simp only [Eva.step, msgsOp] at s1
    cases hi : S.get i with
    | pub a =>
      simp only [hi, (h.public hi).1, evaAnd_left, bind, Except.bind, Except.ok.injEq, Prod.mk.injEq] at s1
      cases hj : S.get j with
      | pub b =>
        refine Sim.next i1 ?_ ?_ ?_ ?_ <;> rw [← s1.2.1]
        · refine push S _ (.pub (a && b)) _ rfl rfl ?_
          rw [(h.public hj).1]
          cases a <;> rfl
        · exact hgid
        · exact hka
        · exact hkb
      | lab b =>
        refine Sim.next i1 ?_ ?_ ?_ ?_ <;> rw [← s1.2.1]
        · refine push S _ (if a then .lab b else .pub false) _ rfl rfl ?_
          rw [(h.secret hc hj).1]
          cases a <;> rfl
        · exact hgid
        · exact hka
        · exact hkb
    | lab a =>
      cases hj : S.get j with
      | pub b =>
        simp only [hi, hj, (h.public hj).1, evaAnd_right, bind, Except.bind, Except.ok.injEq, Prod.mk.injEq] at s1
        refine Sim.next i1 ?_ ?_ ?_ ?_ <;> rw [← s1.2.1]
        · refine push S _ (if b then .lab a else .pub false) _ rfl rfl ?_
          rw [(h.secret hc hi).1]
          cases b <;> rfl
        · exact hgid
        · exact hka
        · exact hkb
      | lab b =>
        obtain ⟨a1, a2⟩ := isPublic_false (h.secret hc hi).2.1
        obtain ⟨b1, b2⟩ := isPublic_false (h.secret hc hj).2.1
        simp only [hi, hj, evaAnd, a1, a2, b1, b2, Bool.or_self, Bool.false_eq_true, if_false, recvTable, bind, Except.bind, Except.ok.injEq, Prod.mk.injEq] at s1
        refine Sim.next i1 ?_ ?_ ?_ ?_ <;> rw [← s1.2.1]
        · refine push { S with gid := S.gid + 1 } _ (.lab (2 ^ (3 * S.gid + 3))) { n.eva with gid := n.eva.gid + 1 } rfl rfl ?_
          show _ = V.sum E.fixPoint _
          rw [sum_g, h.inv.gid, (sim_gate h hc hi hj hf).2]
        · exact congrArg (· + 1) hgid
        · exact hka
        · exact hkb

/-! ### Runs -/

/-- The same for a program. -/
def Fits (E : Env) (P : Block → Block) (Q K : Nat → Block) (V : Vals) (d : Block) : Static → List Bool → List Op → Prop
  | _, _, [] => True
  | S, w, op :: ops => FitsOp E P Q K V d S w op ∧ Fits E P Q K V d (S.next op) (Circuit.next w op) ops

theorem and_mem {S : Static} {a b x : Sym} (hx : x ∈ S.ws) : x ∈ (S.and a b).ws := by
  cases a <;> cases b <;> simp [Static.and, Static.push, hx]

theorem next_mem {S : Static} {op : Op} {x : Sym} (hx : x ∈ S.ws) : x ∈ (S.next op).ws := by
  cases op with
  | and i j => exact and_mem hx
  | reveal p ws => exact hx
  | _ => simp [Static.next, Static.push, hx]

theorem run_mem : ∀ (ops : List Op) {S : Static} {x : Sym}, x ∈ S.ws → x ∈ (S.run ops).ws
  | [], _, _, h => h
  | _ :: ops, _, _, h => run_mem ops (next_mem h)

theorem sim_run {E : Env} {P P' : Block → Block} {Q K : Nat → Block} {V : Vals} : ∀ (ops : List Op) (n : Net) (S : Static) (w : List Bool), Sim E V n S w →
    Calm E V n.gen.delta (S.run ops) → Fits E P Q K V n.gen.delta S w ops → (∀ x ∈ slots S ops, P' (ptA E V x) = P (ptA E V x)) →
    AllApart (withAll E P Q K) n ops ∧ asked (withAll E P Q K) n ops = (slots S ops).map (ptA E V)
      ∧ EvaluatorView.hidden (withAll E P Q K) n ops = (slots S ops).map (ptH E V n.gen.delta)
      ∧ ∃ m out, n.recordEva (withAll E P Q K) ops = .ok (msgs E V S w ops, m) ∧ m.eva.wires = (S.run ops).ws.map (V.sym E.fixPoint)
        ∧ n.eva.run (withAll E P Q K) (cotM (withAll E P Q K) n.gen.delta) E.cotR (ops.map blindA) (msgs E V S w ops) = .ok out
        ∧ n.eva.run (withAll E P' V.ra V.rb) V.rb E.cotR (ops.map blindA) (msgs E V S w ops) = .ok out := by
  intro ops
  induction ops with
  | nil => intro n S w h _ _ _; exact ⟨trivial, rfl, rfl, n, _, rfl, h.ws, rfl, rfl⟩
  | cons op ops ih =>
    intro n S w h hc hf hP
    have hcn : Calm E V n.gen.delta (S.next op) := fun m hm => hc m (run_mem ops hm)
    have hcs : Calm E V n.gen.delta S := fun m hm => hcn m (next_mem hm)
    obtain ⟨o, n1, e1, s1, d1⟩ := sim_step h hcs hcn hf.1
    obtain ⟨p1, p2⟩ := sim_points (P := P) (Q := Q) (K := K) h hcs op
    have hP1 : ∀ x ∈ slotsOp S op, P' (ptA E V x) = P (ptA E V x) := fun x hx => hP x (List.mem_append_left _ hx)
    obtain ⟨r1, r2, r3, m, out, r4, r5, r6, r7⟩ := ih n1 (S.next op) _ s1 (by rw [d1]; exact hc) (by rw [d1]; exact hf.2)
      (fun x hx => hP x (List.mem_append_right _ hx))
    obtain ⟨eb, gb, s, s2, s3⟩ := step_ok e1
    have hsend := sim_send h hcs hf.1
    have f1 := step_frame (withAll E P Q K) _ _ _ op s2 (msgs E V (S.next op) (Circuit.next w op) ops)
    rw [hsend, h.inv.toEva, s1.inv.toEva, List.nil_append, List.nil_append] at f1
    have f2 : n.eva.step (withAll E P Q K) (cotM (withAll E P Q K) n.gen.delta) E.cotR op (msgsOp E V S w op ++ msgs E V (S.next op) (Circuit.next w op) ops)
        = .ok (eb, n1.eva, msgs E V (S.next op) (Circuit.next w op) ops, s) := f1
    have f3 := f2
    rw [sim_eva h hcs hf.1 hP1] at f3
    rw [d1] at r6
    refine ⟨⟨sim_apart h hcs hcn hf.1, fun o2 n2 e2 => ?_⟩, ?_, ?_, m, (eb.toList ++ out.1, out.2.1, out.2.2.1, s ++ out.2.2.2), ?_, r5, ?_, ?_⟩
    · rw [e1] at e2; cases e2; exact r1
    · simp only [asked, points, e1, slots, List.map_append] at r2 ⊢
      rw [p1, r2]
    · simp only [EvaluatorView.hidden, points, e1, slots, List.map_append] at r3 ⊢
      rw [p2, r3, d1]
    · simp only [Net.recordEva, s2, s3, bind, Except.bind]
      rw [show (⟨n1.gen, n1.eva, n1.toEva, n1.toGen⟩ : Net) = n1 from rfl, r4, hsend]
      rfl
    · simp only [List.map_cons, Eva.run, step_blind, msgs, f2, bind, Except.bind, r6]
    · simp only [List.map_cons, Eva.run, step_blind, msgs, f3, bind, Except.bind, r7]

/-- A run without coincidences on the side of the evaluator has none. -/
theorem apart_run {E : Env} : ∀ (ops : List Op) (n : Net) (w : List Bool), Inv n w → AllApart E n ops → NoCoincidence E n ops
  | [], _, _, _, _ => trivial
  | op :: ops, n, w, h, ha => by
    refine ⟨apart_clean h ha.1, fun o n1 e1 => ?_⟩
    obtain ⟨o', n', e2, i1, -⟩ := inv_step h ha.1
    rw [e1] at e2
    cases e2
    exact apart_run ops n1 _ i1 (ha.2 o n1 e1)

end Verif.Props.BackendBound
