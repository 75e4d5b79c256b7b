import Verif.Model.GarblerDirect
import Verif.Spec.ConstGates
import Verif.Props.GC
import Verif.Props.GarblerCheat

/-! C87: a garbler of the ordinary backend that does not follow the code. -/

namespace Verif.Props.GarblerDirect
open Verif.Model Verif.Model.GC Verif.Lemmas Verif.Props
open Verif.Spec.Circuit (Party Op Twist Wire wire garbled newWireBy told openedBy)
open Verif.Spec
open Verif.Props.GarblerCheat (fn)

/-- No accidental label coincidence in one operation (`Clean`, for the tables of this garbler). -/
def CleanAs (E : Env) (t : Nat → Twist) (n : Net) : Op → Prop
  | .and i j =>
      let gi := n.gen.get i
      let gj := n.gen.get j
      let r := garbleAs E (t n.gen.gid) gi (gi ^^^ n.gen.delta) gj (gj ^^^ n.gen.delta) n.gen.delta n.gen.gid
      isPublic gi = false → isPublic gj = false →
        isPublic r.1 = false ∧ isPublic (evalGate E (n.eva.get i) (n.eva.get j) r.2 n.gen.gid) = false
  | op => Clean E n op

/-- No accidental label coincidence in a run. -/
def NoCoincidenceAs (E : Env) (c : Cheat) (n : Net) : List Op → Prop
  | [] => True
  | op :: ops => CleanAs E c.twist n op ∧ ∀ o n', n.stepAs E c op = .ok (o, n') → NoCoincidenceAs E c n' ops

/-- Invariant: values as in C17, and the constants are the wires known to be constant. -/
structure Inv (n : Net) (w : List Wire) : Prop where
  net : NetInv n (w.map (·.val))
  known : ∀ i, isPublic (n.gen.get i) = (wire w i).known

theorem get_val (w : List Wire) (i : Nat) : Circuit.get (w.map (·.val)) i = (wire w i).val := by
  unfold Circuit.get wire
  simp only [List.getD_eq_getElem?_getD, List.getElem?_map]
  cases w[i]? <;> rfl

theorem known_push {g : Gen} {w : List Wire} (hl : g.wires.length = w.length) (h : ∀ i, isPublic (g.get i) = (wire w i).known)
    (g' : Gen) (hg : g'.wires = g.wires) (lg : Block) (v : Wire) (hv : isPublic lg = v.known) :
    ∀ i, isPublic ((g'.push lg).get i) = (wire (w ++ [v]) i).known := by
  intro i
  have hi := h i
  unfold Gen.get wire at hi ⊢
  simp only [Gen.push, hg, List.getD_eq_getElem?_getD] at hi ⊢
  by_cases c : i < w.length
  · rw [List.getElem?_append_left (by omega), List.getElem?_append_left c]
    exact hi
  · by_cases d : i = w.length
    · subst d
      rw [← hl]
      simp only [List.getElem?_concat_length, Option.getD_some, hv]
      rw [hl]
      simp
    · rw [List.getElem?_eq_none (by simp; omega), List.getElem?_eq_none (by simp; omega)]
      decide

theorem secret_of {n : Net} {w : List Wire} (h : Inv n w) (i : Nat) (hk : (wire w i).known = false) :
    isPublic (n.gen.get i) = false ∧ isPublic (n.eva.get i) = false
      ∧ n.eva.get i = n.gen.get i ^^^ sel (wire w i).val n.gen.delta := by
  have hp := h.known i
  rw [hk] at hp
  rcases h.net.rel i with ⟨a, _⟩ | ⟨_, b, c⟩
  · rw [a, pub_isPublic] at hp; cases hp
  · rw [get_val] at c; exact ⟨hp, b, c⟩

theorem const_of {n : Net} {w : List Wire} (h : Inv n w) (i : Nat) (hk : (wire w i).known = true) :
    n.gen.get i = publicLabel (wire w i).val ∧ n.eva.get i = publicLabel (wire w i).val := by
  have hp := h.known i
  rw [hk] at hp
  rcases h.net.rel i with ⟨a, b⟩ | ⟨a, _, _⟩
  · rw [get_val] at a b; exact ⟨a, b⟩
  · rw [a] at hp; cases hp

theorem genAndAs_const (E : Env) (t : Nat → Twist) (g : Gen) (a b : Block) (h : (isPublic a || isPublic b) = true) :
    genAndAs E t g a b = genAnd E g a b := by
  unfold genAndAs genAnd
  split
  · rfl
  · rename_i h1
    split
    · rfl
    · rename_i h2
      split
      · rfl
      · rename_i h3
        simp only [isPublic] at h
        simp_all

/-! ### One operation -/

theorem reveal_loop (p : Party) (delta : Block) (hd : lsb delta = true) (s : Nat → Bool) (n : Net) (w : List Wire) (h : Inv n w)
    (hdel : n.gen.delta = delta) : ∀ (ws : List Nat) (q : List Msg),
    ∃ eb r, evaRevealLoop p (ws.map n.eva.get) (genRevealSendAs p (ws.map fun i => (n.gen.get i, s i)) ++ q) = .ok (eb, q, r)
      ∧ (p ≠ .alice → eb = ws.map (told s w)) ∧ eb.length = ws.length
      ∧ ∀ q', ∃ gb, genRevealLoop p (ws.map n.gen.get) (r ++ q') = .ok (gb, q') ∧ (p = .alice → gb = ws.map fun i => (wire w i).val) := by
  intro ws
  induction ws with
  | nil =>
    intro q
    refine ⟨[], [], ?_, by simp, rfl, fun q' => ⟨[], rfl, by simp⟩⟩
    unfold genRevealSendAs; split <;> rfl
  | cons i ws ih =>
    intro q
    obtain ⟨eb, r, e1, e2, e3, e4⟩ := ih q
    cases hk : (wire w i).known with
    | true =>
      obtain ⟨hg, he⟩ := const_of h i hk
      have hsend : genRevealSendAs p ((i :: ws).map fun i => (n.gen.get i, s i)) = genRevealSendAs p (ws.map fun i => (n.gen.get i, s i)) := by
        unfold genRevealSendAs
        rw [List.map_cons, List.filter_cons_of_neg (by rw [hg]; simp [pub_isPublic])]
      have ht : told s w i = (wire w i).val := by unfold told; rw [hk]; simp
      refine ⟨(wire w i).val :: eb, r, ?_, fun hp => by rw [e2 hp, List.map_cons, ht], by simp [e3], fun q' => ?_⟩
      · rw [hsend, List.map_cons, he]
        cases (wire w i).val <;> simp [evaRevealLoop, publicLabel, e1, bind, Except.bind]
      · obtain ⟨gb, f1, f2⟩ := e4 q'
        refine ⟨(wire w i).val :: gb, ?_, fun hp => by rw [f2 hp]; rfl⟩
        rw [List.map_cons, hg]
        cases (wire w i).val <;> simp [genRevealLoop, publicLabel, f1, bind, Except.bind]
    | false =>
      obtain ⟨k1, k2, k3⟩ := secret_of h i hk
      rw [hdel] at k3
      obtain ⟨a1, a2⟩ := isPublic_false k1
      obtain ⟨b1, b2⟩ := isPublic_false k2
      have hbit : lsb (n.eva.get i) = (lsb (n.gen.get i) != (wire w i).val) := by rw [k3, lsb_xor, lsb_sel _ _ hd]
      by_cases hp : p = .alice
      · subst hp
        have hs : ∀ l, genRevealSendAs Party.alice l = [] := fun l => by simp [genRevealSendAs]
        rw [hs, List.nil_append] at e1
        refine ⟨false :: eb, .bit (lsb (n.eva.get i)) :: r, ?_, by simp, by simp [e3], fun q' => ?_⟩
        · rw [hs]
          simp [evaRevealLoop, b1, b2, e1, bind, Except.bind]
        · obtain ⟨gb, f1, f2⟩ := e4 q'
          refine ⟨(wire w i).val :: gb, ?_, fun hp => by rw [f2 hp]; rfl⟩
          simp only [List.map_cons, genRevealLoop, a1, a2, Bool.false_eq_true, if_false, if_true, List.cons_append, recvBit, bind,
            Except.bind, f1, hbit]
          congr 2; cases lsb (n.gen.get i) <;> cases (wire w i).val <;> rfl
      · have hsend : genRevealSendAs p ((i :: ws).map fun i => (n.gen.get i, s i))
            = .bit (lsb (n.gen.get i) ^^ s i) :: genRevealSendAs p (ws.map fun i => (n.gen.get i, s i)) := by
          unfold genRevealSendAs
          rw [if_neg hp, if_neg hp, List.map_cons, List.filter_cons_of_pos (by simp [k1])]; rfl
        have ht : told s w i = ((wire w i).val ^^ s i) := by unfold told; rw [hk]; simp
        refine ⟨told s w i :: eb, r, ?_, fun hp => by rw [e2 hp]; rfl, by simp [e3], fun q' => ?_⟩
        · rw [hsend]
          simp only [List.map_cons, evaRevealLoop, b1, b2, Bool.false_eq_true, if_false, hp, List.cons_append, recvBit, bind,
            Except.bind, e1, hbit, ht]
          congr 2; cases lsb (n.gen.get i) <;> cases (wire w i).val <;> cases s i <;> rfl
        · obtain ⟨gb, f1, f2⟩ := e4 q'
          refine ⟨false :: gb, ?_, fun hh => absurd hh hp⟩
          simp only [List.map_cons, genRevealLoop, a1, a2, Bool.false_eq_true, if_false, hp, bind, Except.bind, f1]

theorem unflip_told (s : Nat → Bool) (n : Net) (w : List Wire) (h : Inv n w) (ws : List Nat) :
    unflip (ws.map fun i => (n.gen.get i, s i)) (ws.map (told s w)) = ws.map fun i => (wire w i).val := by
  unfold unflip
  rw [List.zipWith_map]
  induction ws with
  | nil => rfl
  | cons i ws ih =>
    rw [List.zipWith_cons_cons, ih, List.map_cons]
    congr 1
    simp only [told, h.known i]
    cases (wire w i).val <;> cases (wire w i).known <;> cases s i <;> rfl

/-- What an opening gives to the two parties: the receiver gets the values meant for it. -/
def RevealAs (out want : Party × List Bool × List Bool) : Prop :=
  out.1 = want.1
    ∧ (out.1 ≠ .bob → out.2.1 = want.2.1)
    ∧ (out.1 ≠ .alice → out.2.2 = want.2.2)

theorem step_wire (E : Env) (n : Net) (w : List Wire) (op : Op) (h : Inv n w) (hc : Clean E n op) (hr : ∀ p ws, op ≠ .reveal p ws)
    (hg : ∀ i j, op = .and i j → ((wire w i).known || (wire w j).known) = true) (f : Nat → Bool → Bool → Bool) (k : Nat) :
    ∃ n', n.step E op = .ok (none, n') ∧ Inv n' (w ++ (newWireBy f k w op).toList) ∧ n'.gen.gid = n.gen.gid := by
  obtain ⟨o, n', e, h1, -⟩ := net_step E n (w.map (·.val)) op h.net hc
  have hl : n.gen.wires.length = w.length := by rw [h.net.glen, List.length_map]
  have fin : ∀ (g' : Gen) (lg : Block) (v : Wire), g'.wires = n.gen.wires → isPublic lg = v.known → n'.gen = g'.push lg →
      newWireBy f k w op = some v → Circuit.newWire (w.map (·.val)) op = some v.val → Inv n' (w ++ (newWireBy f k w op).toList) := by
    intro g' lg v a b c d d'
    refine ⟨?_, ?_⟩
    · rw [Circuit.next, d'] at h1
      rw [d, List.map_append]
      exact h1
    · rw [d, c]
      exact known_push hl h.known g' a lg v b
  cases op with
  | reveal p ws => exact absurd rfl (hr p ws)
  | pub b =>
    cases e
    exact ⟨_, rfl, fin n.gen _ ⟨true, b⟩ rfl (pub_isPublic b) rfl rfl rfl, rfl⟩
  | inA b =>
    cases e
    refine ⟨_, rfl, fin { n.gen with prgPos := n.gen.prgPos + 1 } _ ⟨false, b⟩ rfl ?_ rfl rfl rfl, rfl⟩
    rw [sel_if]
    exact hc.1
  | inB b =>
    simp only [Net.step, h.net.toGen, List.nil_append, recvBit, bind, Except.bind] at e
    cases e
    refine ⟨_, by simp only [Net.step, h.net.toGen, List.nil_append, recvBit, bind, Except.bind],
      fin { n.gen with cotPos := n.gen.cotPos + 1 } _ ⟨false, b⟩ rfl ?_ rfl rfl rfl, rfl⟩
    rw [sel_if, h.net.cot]
    exact hc.1
  | xor i j =>
    cases e
    refine ⟨_, rfl, fin n.gen _ ⟨(wire w i).known && (wire w j).known, (wire w i).val ^^ (wire w j).val⟩ rfl ?_ rfl rfl ?_, rfl⟩
    · cases hk : ((wire w i).known && (wire w j).known) with
      | false => exact (hc.1 (by rw [h.known, h.known, hk])).1
      | true =>
        rw [Bool.and_eq_true] at hk
        rw [(const_of h i hk.1).1, (const_of h j hk.2).1]
        cases (wire w i).val <;> cases (wire w j).val <;> simp [publicLabel, genXor, genNot, isPublic]
    · simp only [Circuit.newWire, get_val]
  | not i =>
    cases e
    refine ⟨_, rfl, fin n.gen _ ⟨(wire w i).known, !(wire w i).val⟩ rfl ?_ rfl rfl ?_, rfl⟩
    · cases hk : (wire w i).known with
      | false => exact hc (by rw [h.known, hk])
      | true =>
        rw [(const_of h i hk).1]
        cases (wire w i).val <;> simp [publicLabel, genNot, isPublic]
    · simp only [Circuit.newWire, get_val]
  | and i j =>
    have hgen : ∃ v, newWireBy f k w (.and i j) = some v ∧ v.val = ((wire w i).val && (wire w j).val)
        ∧ ∃ lg, genAnd E n.gen (n.gen.get i) (n.gen.get j) = (lg, n.gen, []) ∧ isPublic lg = v.known := by
      simp only [newWireBy]
      have hor := hg i j rfl
      cases hi : (wire w i).known with
      | true =>
        rw [(const_of h i hi).1, if_pos rfl]
        cases hv : (wire w i).val with
        | false => exact ⟨_, rfl, rfl, zeroB, by simp [genAnd, publicLabel], by simp [isPublic]⟩
        | true =>
          refine ⟨_, rfl, rfl, n.gen.get j, ?_, by simp [h.known j]⟩
          simp only [genAnd, publicLabel, if_true, isZero_oneB, Bool.false_or, isOne_oneB]
          split
          · rename_i hz; rw [isZero_iff] at hz; rw [hz]
          · rfl
      | false =>
        rw [hi, Bool.false_or] at hor
        rw [(const_of h j hor).1, if_neg (by simp), if_pos hor]
        obtain ⟨k1, k2, k3⟩ := secret_of h i hi
        obtain ⟨a1, a2⟩ := isPublic_false k1
        cases hv : (wire w j).val with
        | false => exact ⟨_, rfl, by simp, zeroB, by simp [genAnd, publicLabel], by simp [isPublic]⟩
        | true => exact ⟨_, rfl, by simp, n.gen.get i, by simp [genAnd, publicLabel, a1, a2], by simp [h.known i]⟩
    obtain ⟨v, v1, v2, lg, g1, g2⟩ := hgen
    simp only [Net.step, g1, bind, Except.bind] at e
    cases he : evaAnd E n.eva (n.eva.get i) (n.eva.get j) (n.toEva ++ []) with
    | error x => rw [he] at e; cases e
    | ok x =>
      rw [he] at e
      cases e
      refine ⟨_, by simp only [Net.step, g1, bind, Except.bind, he], fin n.gen lg v rfl g2 rfl v1 ?_, rfl⟩
      simp only [Circuit.newWire, get_val, v2]

theorem step_cheat (E : Env) (c : Cheat) (n : Net) (w : List Wire) (op : Op) (h : Inv n w) (hc : CleanAs E c.twist n op) :
    ∃ o n', n.stepAs E c op = .ok (o, n') ∧ Inv n' (w ++ (newWireBy (fn c.twist) n.gen.gid w op).toList)
      ∧ n'.gen.gid = n.gen.gid + garbled w op
      ∧ List.Forall₂ RevealAs o.toList (openedBy (fn c.twist) c.flip n.gen.gid w [op]) := by
  have plain : (∀ p ws, op ≠ .reveal p ws) → (∀ i j, op ≠ .and i j) →
      ∃ o n', n.stepAs E c op = .ok (o, n') ∧ Inv n' (w ++ (newWireBy (fn c.twist) n.gen.gid w op).toList)
        ∧ n'.gen.gid = n.gen.gid + garbled w op
        ∧ List.Forall₂ RevealAs o.toList (openedBy (fn c.twist) c.flip n.gen.gid w [op]) := by
    intro h1 h2
    have hc' : Clean E n op := by cases op <;> first | exact hc | exact absurd rfl (h2 _ _)
    obtain ⟨n', e, hi, hgid⟩ := step_wire E n w op h hc' h1 (fun i j e => absurd e (h2 i j)) (fn c.twist) n.gen.gid
    have hs : n.stepAs E c op = n.step E op := by
      cases op <;> first | rfl | exact absurd rfl (h2 _ _) | exact absurd rfl (h1 _ _)
    refine ⟨none, n', by rw [hs, e], hi, ?_, ?_⟩
    · cases op <;> first | exact hgid | exact absurd rfl (h2 _ _)
    · cases op <;> first | exact .nil | exact absurd rfl (h1 _ _)
  cases op with
  | pub b => exact plain (by simp) (by simp)
  | inA b => exact plain (by simp) (by simp)
  | inB b => exact plain (by simp) (by simp)
  | xor i j => exact plain (by simp) (by simp)
  | not i => exact plain (by simp) (by simp)
  | and i j =>
    cases hk : ((wire w i).known || (wire w j).known) with
    | true =>
      have hcl : Clean E n (.and i j) := by
        intro a b
        rw [h.known] at a b
        rw [a, b] at hk
        cases hk
      obtain ⟨n', e, hi, hgid⟩ := step_wire E n w (.and i j) h hcl (by simp) (fun i' j' e => by cases e; exact hk) (fn c.twist) n.gen.gid
      have hs : n.stepAs E c (.and i j) = n.step E (.and i j) := by
        simp only [Net.stepAs, Net.step, genAndAs_const E c.twist n.gen (n.gen.get i) (n.gen.get j) (by rw [h.known, h.known, hk])]
      refine ⟨none, n', by rw [hs, e], hi, ?_, .nil⟩
      simp only [garbled, hk, if_true, hgid, Nat.add_zero]
    | false =>
      rw [Bool.or_eq_false_iff] at hk
      obtain ⟨pi, qi, ri⟩ := secret_of h i hk.1
      obtain ⟨pj, qj, rj⟩ := secret_of h j hk.2
      obtain ⟨c1, c2⟩ := hc pi pj
      obtain ⟨a1, a2⟩ := isPublic_false pi
      obtain ⟨b1, b2⟩ := isPublic_false pj
      obtain ⟨d1, d2⟩ := isPublic_false qi
      obtain ⟨e1, e2⟩ := isPublic_false qj
      have hnew : newWireBy (fn c.twist) n.gen.gid w (.and i j)
          = some ⟨false, fn c.twist n.gen.gid (wire w i).val (wire w j).val⟩ := by
        simp only [newWireBy, hk.1, hk.2, Bool.false_eq_true, if_false]
      have key := GarblerCheat.C80_gate E (c.twist n.gen.gid) (n.gen.get i) (n.gen.get j) n.gen.delta h.net.delta n.gen.gid
        (wire w i).val (wire w j).val
      simp only [sel_if] at key
      rw [← ri, ← rj] at key
      refine ⟨none, { n with
          gen := Gen.push { n.gen with gid := n.gen.gid + 1 } (garbleAs E (c.twist n.gen.gid) (n.gen.get i) (n.gen.get i ^^^ n.gen.delta) (n.gen.get j) (n.gen.get j ^^^ n.gen.delta) n.gen.delta n.gen.gid).1
          eva := Eva.push { n.eva with gid := n.eva.gid + 1 } (evalGate E (n.eva.get i) (n.eva.get j) (garbleAs E (c.twist n.gen.gid) (n.gen.get i) (n.gen.get i ^^^ n.gen.delta) (n.gen.get j) (n.gen.get j ^^^ n.gen.delta) n.gen.delta n.gen.gid).2 n.gen.gid) },
        ?_, ⟨?_, ?_⟩, ?_, .nil⟩
      · simp only [Net.stepAs, genAndAs, evaAnd, a1, a2, b1, b2, d1, d2, e1, e2, Bool.or_self, Bool.false_eq_true, if_false,
          h.net.toEva, List.nil_append, recvTable, bind, Except.bind, h.net.gid]
      · rw [hnew, List.map_append]
        exact h.net.push (g' := { n.gen with gid := n.gen.gid + 1 }) (e' := { n.eva with gid := n.eva.gid + 1 })
          (v := fn c.twist n.gen.gid (wire w i).val (wire w j).val) (Or.inr ⟨c1, c2, key⟩) rfl rfl rfl
          (by show _ + 1 = _ + 1; rw [h.net.gid]) h.net.prg h.net.cot
      · rw [hnew]
        exact known_push (by rw [h.net.glen, List.length_map]) h.known { n.gen with gid := n.gen.gid + 1 } rfl _ ⟨false, _⟩ c1
      · simp only [garbled, hk.1, hk.2, Bool.or_self, Bool.false_eq_true, if_false]
        rfl
  | reveal p ws =>
    obtain ⟨eb, r, e1, e2, e3, e4⟩ := reveal_loop p n.gen.delta h.net.delta c.flip n w h rfl ws []
    rw [List.append_nil] at e1
    have hw : Inv n (w ++ (newWireBy (fn c.twist) n.gen.gid w (.reveal p ws)).toList) := by
      simpa [newWireBy] using h
    have hn : n = { n with toEva := [], toGen := [] } := by
      obtain ⟨g, e, te, tg⟩ := n
      have a1 := h.net.toEva
      have a2 := h.net.toGen
      simp only at a1 a2
      subst a1 a2
      rfl
    by_cases hp : p = .pub
    · subst hp
      have hb := e2 (by simp)
      subst hb
      have hopen := genOpenBlocks_spec n.gen.delta (ws.map n.gen.get) (ws.map n.eva.get) (ws.map fun i => (wire w i).val)
        (by simp) (by simp) (by
          intro i h1 h2 h3
          simp only [List.getElem_map, ← get_val]
          exact h.net.rel _)
      obtain ⟨gb, f1, _⟩ := e4 [.bits (ws.map (told c.flip w)), .dig (E.hash (ws.map n.eva.get))]
      refine ⟨some (.pub, ws.map fun i => (wire w i).val, ws.map (told c.flip w)), n, ?_, hw, rfl, ?_⟩
      · have hfst : (ws.map fun i => (n.gen.get i, c.flip i)).map (·.1) = ws.map n.gen.get := by
          rw [List.map_map]; rfl
        simp only [Net.stepAs, h.net.toEva, h.net.toGen, List.nil_append, e1, if_true, f1, genPublicCheckAs, recvBits, recvDig,
          bind, Except.bind, unflip_told c.flip n w h ws, hfst, hopen, List.length_map, ne_eq, not_true_eq_false, if_false]
        rw [← hn]
      · exact .cons ⟨rfl, fun _ => rfl, fun _ => rfl⟩ .nil
    · obtain ⟨gb, f1, f2⟩ := e4 []
      rw [List.append_nil] at f1
      refine ⟨some (p, gb, eb), n, ?_, hw, rfl, ?_⟩
      · simp only [Net.stepAs, h.net.toEva, h.net.toGen, List.nil_append, e1, hp, if_false, List.append_nil, f1, bind, Except.bind]
        rw [← hn]
      · refine .cons ⟨rfl, fun hb => f2 ?_, fun ha => e2 ha⟩ .nil
        cases p
        · rfl
        · exact absurd rfl hb
        · exact absurd rfl hp

theorem openedBy_cons (f : Nat → Bool → Bool → Bool) (s : Nat → Bool) (k : Nat) (w : List Wire) (op : Op) (ops : List Op) :
    openedBy f s k w (op :: ops) = openedBy f s k w [op] ++ openedBy f s (k + garbled w op) (w ++ (newWireBy f k w op).toList) ops := by
  cases op <;> simp [openedBy, newWireBy, garbled]

theorem run_cheat (E : Env) (c : Cheat) (ops : List Op) : ∀ (n : Net) (w : List Wire), Inv n w → NoCoincidenceAs E c n ops →
    ∃ os n', n.runAs E c ops = .ok (os, n') ∧ List.Forall₂ RevealAs os (openedBy (fn c.twist) c.flip n.gen.gid w ops)
      ∧ n'.toEva = [] ∧ n'.toGen = [] ∧ n'.eva.gid = n'.gen.gid := by
  induction ops with
  | nil => intro n w h _; exact ⟨[], n, rfl, .nil, h.net.toEva, h.net.toGen, h.net.gid⟩
  | cons op ops ih =>
    intro n w h hc
    obtain ⟨o, n1, e1, h1, g1, r1⟩ := step_cheat E c n w op h hc.1
    obtain ⟨os, n', e2, r2, q⟩ := ih n1 _ h1 (hc.2 o n1 e1)
    refine ⟨o.toList ++ os, n', by simp only [Net.runAs, e1, e2, bind, Except.bind], ?_, q⟩
    rw [openedBy_cons, ← g1]
    exact List.rel_append r1 r2

theorem start_inv (d : Block) : Inv { gen := { delta := setDelta d }, eva := {} } [] := by
  refine ⟨⟨C16_delta d, rfl, rfl, rfl, rfl, rfl, rfl, rfl, fun i => Or.inl ⟨?_, ?_⟩⟩, fun i => ?_⟩
  · simp [Gen.get, Circuit.get, publicLabel]
  · simp [Eva.get, Circuit.get, publicLabel]
  · simp [Gen.get, wire, isPublic]

/-- C87: for every program, every table change per gate and every set of wires told wrongly, with the code of the evaluator the run succeeds, the
queues end empty, and each opening gives ALICE the values of the program in which the garbled gates compute the functions of the changed tables,
and BOB these values with the chosen wires inverted. -/
theorem C87_run (E : Env) (d : Block) (c : Cheat) (ops : List Op)
    (hc : NoCoincidenceAs E c { gen := { delta := setDelta d }, eva := {} } ops) :
    ∃ os n', Net.runAs E c { gen := { delta := setDelta d }, eva := {} } ops = .ok (os, n')
      ∧ List.Forall₂ RevealAs os (openedBy (fun k => (c.twist k).apply) c.flip 0 [] ops)
      ∧ n'.toEva = [] ∧ n'.toGen = [] ∧ n'.eva.gid = n'.gen.gid :=
  run_cheat E c ops _ [] (start_inv d) hc

/-- The functions of a garbled gate that can be had in this way are those true for an odd number of operands (as in C80). -/
theorem C87_functions (f : Nat → Bool → Bool → Bool) :
    (∃ t : Nat → Twist, (fun k => (t k).apply) = f)
      ↔ ∀ k, (((f k false false ^^ f k false true) ^^ f k true false) ^^ f k true true) = true := by
  constructor
  · rintro ⟨t, rfl⟩ k
    exact (GarblerCheat.C80_functions _).1 ⟨t k, fun a b => rfl⟩
  · intro h
    have hc : ∀ k, ∃ t : Twist, ∀ a b, t.apply a b = f k a b := fun k => (GarblerCheat.C80_functions (f k)).2 (h k)
    choose t ht using hc
    exact ⟨t, by funext k a b; exact ht k a b⟩

/-- The garbler of the code. -/
def honest : Cheat := ⟨fun _ => ⟨false, false, false⟩, fun _ => false⟩

theorem unflip_none (gl : List Block) : ∀ bs : List Bool, bs.length = gl.length → unflip (gl.map fun g => (g, false)) bs = bs := by
  induction gl with
  | nil => intro bs h; cases bs <;> simp_all [unflip]
  | cons g gl ih =>
    intro bs h
    cases bs with
    | nil => simp at h
    | cons b bs =>
      have := ih bs (by simpa using h)
      unfold unflip at this ⊢
      rw [List.map_cons, List.zipWith_cons_cons, this]
      simp

/-- Without changes this is the code (`Net.run`, C17). -/
theorem C87_honest (E : Env) (n : Net) (ops : List Op) : n.runAs E honest ops = n.run E ops := by
  induction ops generalizing n with
  | nil => rfl
  | cons op ops ih =>
    have : n.stepAs E honest op = n.step E op := by
      cases op with
      | and i j =>
        have hz : ∀ x : Block, x ^^^ sel false n.gen.delta = x := by intro x; simp [sel]
        simp only [Net.stepAs, Net.step, genAndAs, genAnd, honest, garbleAs, hz, Bool.false_and, Bool.xor_false]
      | reveal p ws =>
        have hs : genRevealSendAs p (ws.map fun i => (n.gen.get i, false)) = genRevealSend p (ws.map n.gen.get) := by
          unfold genRevealSendAs genRevealSend
          split
          · rfl
          · induction ws with
            | nil => rfl
            | cons i ws ih =>
              simp only [List.map_cons, List.filter_cons]
              split <;> simp [ih]
        have hu : (ws.map fun i => (n.gen.get i, false)) = (ws.map n.gen.get).map fun g => (g, false) := by
          rw [List.map_map]; rfl
        have hf : ((ws.map n.gen.get).map fun g => (g, false)).map (·.1) = ws.map n.gen.get := by
          rw [List.map_map]; simp [Function.comp_def]
        have hp : ∀ q, genPublicCheckAs E n.gen.delta (ws.map fun i => (n.gen.get i, false)) q = genPublicCheck E n.gen.delta (ws.map n.gen.get) q := by
          intro q
          rw [hu]
          simp only [genPublicCheckAs, genPublicCheck, bind, Except.bind, hf]
          cases recvBits q with
          | error x => rfl
          | ok x =>
            simp only [List.length_map]
            by_cases hl : x.1.length = ws.length
            · simp only [hl, ne_eq, not_true_eq_false, if_false]
              rw [unflip_none _ _ (by rw [hl, List.length_map])]
            · simp only [ne_eq, hl, not_false_eq_true, if_true]
        simp only [Net.stepAs, Net.step, honest, hs, hp]
      | _ => rfl
    simp only [Net.runAs, Net.run, this, bind, Except.bind]
    cases n.step E op with
    | error e => rfl
    | ok m => simp only [ih]

/-- The values of a program with AND in every gate and nothing told wrongly are the plain ones. -/
theorem C87_plain (ops : List Op) : ∀ (k : Nat) (w : List Wire),
    openedBy (fun _ a b => a && b) (fun _ => false) k w ops = (Circuit.opened (w.map (·.val)) ops).map fun o => (o.1, o.2, o.2) := by
  induction ops with
  | nil => intros; rfl
  | cons op ops ih =>
    intro k w
    rw [openedBy_cons, opened_cons, List.map_append, ih]
    congr 1
    · cases op <;> try rfl
      simp only [openedBy, Circuit.opened, List.map_cons, List.map_nil]
      congr 3
      · exact List.map_congr_left fun i _ => (get_val w i).symm
      · refine List.map_congr_left fun i _ => ?_
        rw [get_val, told]; simp
    · congr 2
      rw [List.map_append, Circuit.next]
      congr 1
      cases op with
      | and i j =>
        simp only [newWireBy, Circuit.newWire, get_val]
        cases (wire w i).known <;> cases (wire w j).known <;> cases hi : (wire w i).val <;> cases hj : (wire w j).val <;> simp [hi, hj]
      | xor i j =>
        simp only [newWireBy, Circuit.newWire, get_val]
        rfl
      | not i =>
        simp only [newWireBy, Circuit.newWire, get_val]
        rfl
      | _ => rfl

/-- C87: ALICE with input 0 gets an input of BOB out of a program that should show it 0 only, and BOB is shown the inverse of a value that is opened
to both. -/
theorem C87_leak (E : Env) (d : Block) (b : Bool)
    (hc : NoCoincidenceAs E ⟨fun _ => ⟨false, true, false⟩, fun _ => true⟩ { gen := { delta := setDelta d }, eva := {} } [.inA false, .inB b, .and 0 1, .reveal .alice [2], .reveal .pub [1]]) :
    Circuit.opened [] [.inA false, .inB b, .and 0 1, .reveal .alice [2], .reveal .pub [1]] = [(.alice, [false]), (.pub, [b])]
    ∧ ∃ os n', Net.runAs E ⟨fun _ => ⟨false, true, false⟩, fun _ => true⟩ { gen := { delta := setDelta d }, eva := {} } [.inA false, .inB b, .and 0 1, .reveal .alice [2], .reveal .pub [1]] = .ok (os, n')
      ∧ os.map (fun o => o.2.1) = [[b], [b]] ∧ (os.map (fun o => o.2.2))[1]? = some [!b] := by
  refine ⟨by simp [Circuit.opened, Circuit.next, Circuit.newWire, Circuit.get], ?_⟩
  obtain ⟨os, n', e, h, -⟩ := C87_run E d _ _ hc
  refine ⟨os, n', e, ?_⟩
  have hw : openedBy (fun k => ((fun _ => (⟨false, true, false⟩ : Twist)) k).apply) (fun _ => true) 0 [] [.inA false, .inB b, .and 0 1, .reveal .alice [2], .reveal .pub [1]]
      = [(.alice, [b], [!b]), (.pub, [b], [!b])] := by cases b <;> rfl
  rw [hw] at h
  cases h with
  | cons h1 h2 =>
    cases h2 with
    | cons h3 h4 =>
      cases h4
      obtain ⟨p1, q1, r1⟩ := h1
      obtain ⟨p3, q3, r3⟩ := h3
      simp only [List.map_cons, List.map_nil, List.getElem?_cons_succ, List.getElem?_cons_zero]
      rw [q1 (by rw [p1]; simp), q3 (by rw [p3]; simp), r3 (by rw [p3]; simp)]
      exact ⟨rfl, rfl⟩

instance (E : Env) (t : Nat → Twist) (n : Net) (op : Op) : Decidable (CleanAs E t n op) := by
  cases op <;> unfold CleanAs <;> infer_instance

instance decNoCoincidenceAs (E : Env) (c : Cheat) : (ops : List Op) → (n : Net) → Decidable (NoCoincidenceAs E c n ops)
  | [], _ => isTrue trivial
  | op :: ops, n =>
    match h : n.stepAs E c op with
    | .ok (o, n') =>
      have := decNoCoincidenceAs E c ops n'
      if hc : CleanAs E c.twist n op ∧ NoCoincidenceAs E c n' ops then
        isTrue ⟨hc.1, fun o2 n2 e => by rw [h] at e; cases e; exact hc.2⟩
      else isFalse fun k => hc ⟨k.1, k.2 o n' h⟩
    | .error x => if hc : CleanAs E c.twist n op then isTrue ⟨hc, fun _ _ e => by rw [h] at e; cases e⟩ else isFalse fun k => hc k.1

/-- The hypothesis of `C87_run` for a program using every operation, all inputs, changed tables and flips. -/
example : ∀ a b l r x f, NoCoincidenceAs exEnv ⟨fun _ => ⟨l, r, x⟩, fun i => f && i % 2 == 0⟩
    { gen := { delta := setDelta 0xFEDCBA9876543210FEDCBA9876543210#128 }, eva := {} } (exOps a b) := by
  decide +kernel

/-- The hypothesis of `C87_leak`, for both inputs. -/
example : ∀ b, NoCoincidenceAs exEnv ⟨fun _ => ⟨false, true, false⟩, fun _ => true⟩
    { gen := { delta := setDelta 0xFEDCBA9876543210FEDCBA9876543210#128 }, eva := {} } [.inA false, .inB b, .and 0 1, .reveal .alice [2], .reveal .pub [1]] := by
  decide +kernel

/-! ### A wire that the evaluator takes for a constant -/

theorem sel_and (s : Bool) (x : Block) : (if s then x else 0) = sel s x := rfl

/-- C87, one gate: with the table `silentTable`, made of the label of the first operand with lowest bit 1, the evaluator gets the zero block, its
block of the constant 0, if and only if it holds that label; otherwise it gets one of two labels with offset `delta`. -/
theorem C87_silent_gate (E : Env) (LA LB delta : Block) (hd : delta.getLsbD 0 = true) (idx : Nat) (a b : Bool) :
    evalGate E (LA ^^^ sel a delta) (LB ^^^ sel b delta)
        (silentTable E (LA ^^^ sel (!lsb LA) delta) (LB ^^^ sel (lsb LB) delta) (LB ^^^ sel (!lsb LB) delta) idx) idx
      = if a != lsb LA then zeroB
        else (E.h (LA ^^^ sel (lsb LA) delta) (tweak1 idx) ^^^ E.h (LB ^^^ sel (lsb LB) delta) (tweak2 idx)) ^^^ sel (b != lsb LB) delta := by
  have hd' : lsb delta = true := hd
  have hx : ∀ x y : Block, x ^^^ (x ^^^ y) = y := by intro x y; rw [← BitVec.xor_assoc]; simp
  unfold evalGate silentTable
  simp only [lsb_xor, lsb_sel _ _ hd']
  generalize lsb LA = pa
  generalize lsb LB = pb
  cases a <;> cases b <;> cases pa <;> cases pb <;>
    simp only [sel, zeroB, show (0 : Block) = 0#128 from rfl, BitVec.xor_zero, Bool.false_eq_true, if_false, if_true, Bool.not_true, Bool.not_false,
      bne_self_eq_false, Bool.bne_false, Bool.bne_true] <;>
    (generalize E.h LA (tweak1 idx) = x1
     generalize E.h (LA ^^^ delta) (tweak1 idx) = x2
     generalize E.h LB (tweak2 idx) = x3
     generalize E.h (LB ^^^ delta) (tweak2 idx) = x4
     ext i hi; simp <;> grind)

theorem get_last (e : Eva) (x : Block) : (e.push x).get e.wires.length = x := by
  simp [Eva.push, Eva.get]

/-- C87: whether the evaluator sends a bit when it opens to ALICE the output of a gate with that table tells the garbler the first operand of the gate. -/
theorem C87_silent (E : Env) (cot : Nat → Block) (r : Nat → Bool) (e : Eva) (i j : Nat) (LA LB delta : Block) (hd : delta.getLsbD 0 = true)
    (a b : Bool) (hi : e.get i = LA ^^^ sel a delta) (hj : e.get j = LB ^^^ sel b delta) (pi : isPublic (e.get i) = false) (pj : isPublic (e.get j) = false)
    (hx : ∀ s, isPublic ((E.h (LA ^^^ sel (lsb LA) delta) (tweak1 e.gid) ^^^ E.h (LB ^^^ sel (lsb LB) delta) (tweak2 e.gid)) ^^^ sel s delta) = false)
    (q : List Msg) :
    ∃ t : Block × Block, t = silentTable E (LA ^^^ sel (!lsb LA) delta) (LB ^^^ sel (lsb LB) delta) (LB ^^^ sel (!lsb LB) delta) e.gid
      ∧ ∃ e' s, e.run E cot r [.and i j, .reveal .alice [e.wires.length]] ([.blk t.1, .blk t.2] ++ q) = .ok ([[false]], e', q, s)
        ∧ (s = [] ↔ a = !lsb LA) ∧ s.length ≤ 1 := by
  refine ⟨_, rfl, ?_⟩
  obtain ⟨a1, a2⟩ := isPublic_false pi
  obtain ⟨b1, b2⟩ := isPublic_false pj
  have hg := C87_silent_gate E LA LB delta hd e.gid a b
  rw [← hi, ← hj] at hg
  generalize ht : silentTable E (LA ^^^ sel (!lsb LA) delta) (LB ^^^ sel (lsb LB) delta) (LB ^^^ sel (!lsb LB) delta) e.gid = t at hg ⊢
  have hstep : ∀ x, evalGate E (e.get i) (e.get j) t e.gid = x →
      e.step E cot r (.and i j) ([.blk t.1, .blk t.2] ++ q) = .ok (none, Eva.push { e with gid := e.gid + 1 } x, q, []) := by
    intro x hx
    simp only [Eva.step, evaAnd, a1, a2, b1, b2, Bool.or_self, Bool.false_eq_true, if_false, recvTable, List.cons_append, List.nil_append, bind, Except.bind, hx]
  by_cases hc : (a != lsb LA) = true
  · rw [if_pos hc] at hg
    have hl := get_last { e with gid := e.gid + 1 } zeroB
    simp only at hl
    refine ⟨Eva.push { e with gid := e.gid + 1 } zeroB, [], ?_, ?_, by simp⟩
    · simp only [Eva.run, hstep _ hg, bind, Except.bind]
      simp only [Eva.step, bind, Except.bind, List.map_cons, List.map_nil, hl, evaRevealLoop, isOne_zeroB, isZero_zeroB,
        Bool.false_eq_true, if_false, if_true]
      rfl
    · simp only [true_iff]
      revert hc; cases a <;> cases lsb LA <;> decide
  · rw [if_neg hc] at hg
    obtain ⟨c1, c2⟩ := isPublic_false (hx (b != lsb LB))
    have hl := get_last { e with gid := e.gid + 1 } ((E.h (LA ^^^ sel (lsb LA) delta) (tweak1 e.gid) ^^^ E.h (LB ^^^ sel (lsb LB) delta) (tweak2 e.gid)) ^^^ sel (b != lsb LB) delta)
    simp only at hl
    refine ⟨Eva.push { e with gid := e.gid + 1 } ((E.h (LA ^^^ sel (lsb LA) delta) (tweak1 e.gid) ^^^ E.h (LB ^^^ sel (lsb LB) delta) (tweak2 e.gid)) ^^^ sel (b != lsb LB) delta),
      [.bit (lsb ((E.h (LA ^^^ sel (lsb LA) delta) (tweak1 e.gid) ^^^ E.h (LB ^^^ sel (lsb LB) delta) (tweak2 e.gid)) ^^^ sel (b != lsb LB) delta))], ?_, ?_, by simp⟩
    · simp only [Eva.run, hstep _ hg, bind, Except.bind]
      simp only [Eva.step, bind, Except.bind, List.map_cons, List.map_nil, hl, evaRevealLoop, c1, c2,
        Bool.false_eq_true, if_false, if_true]
      rfl
    · simp only [List.cons_ne_nil, false_iff]
      revert hc; cases a <;> cases lsb LA <;> decide

/-- The hypotheses of `C87_silent`, for all operands. -/
example : ∀ a b, (let LA := exEnv.prg 0; let LB := exEnv.cotK 0; let delta := setDelta 0xFEDCBA9876543210FEDCBA9876543210#128
    let e : Eva := { wires := [LA ^^^ sel a delta, LB ^^^ sel b delta] }
    delta.getLsbD 0 = true ∧ e.get 0 = LA ^^^ sel a delta ∧ e.get 1 = LB ^^^ sel b delta ∧ isPublic (e.get 0) = false ∧ isPublic (e.get 1) = false
      ∧ ∀ s, isPublic ((exEnv.h (LA ^^^ sel (lsb LA) delta) (tweak1 e.gid) ^^^ exEnv.h (LB ^^^ sel (lsb LB) delta) (tweak2 e.gid)) ^^^ sel s delta) = false) := by
  decide +kernel

/-! ### The evaluator checks nothing -/

/-- The blocks among the messages, and the bits. -/
def blks (q : List Msg) : List Block := q.filterMap fun | .blk b => some b | _ => none
def bits (q : List Msg) : List Bool := q.filterMap fun | .bit b => some b | _ => none

theorem loop_any (p : Party) (y : Nat → Bool) : ∀ (el : List Block) (c : Nat), ∃ k q bs s,
    (∀ rest, evaRevealLoop p el (q ++ rest) = .ok (bs, rest, s)) ∧ q = ((List.range' c k).map fun i => Msg.bit (y i)) := by
  intro el
  induction el with
  | nil => intro c; exact ⟨0, [], [], [], fun _ => rfl, rfl⟩
  | cons l el ih =>
    intro c
    by_cases h1 : isOne l = true
    · obtain ⟨k, q, bs, s, e, hq⟩ := ih c
      exact ⟨k, q, true :: bs, s, fun rest => by simp only [evaRevealLoop, h1, if_true, e, bind, Except.bind], hq⟩
    · by_cases h2 : isZero l = true
      · obtain ⟨k, q, bs, s, e, hq⟩ := ih c
        exact ⟨k, q, false :: bs, s, fun rest => by simp only [evaRevealLoop, h1, h2, if_true, e, bind, Except.bind]; rfl, hq⟩
      · by_cases h3 : p = .alice
        · obtain ⟨k, q, bs, s, e, hq⟩ := ih c
          exact ⟨k, q, false :: bs, .bit (lsb l) :: s, fun rest => by simp only [evaRevealLoop, h1, h2, h3, if_true, bind, Except.bind]; rw [← h3, e]; rfl, hq⟩
        · obtain ⟨k, q, bs, s, e, hq⟩ := ih (c + 1)
          refine ⟨k + 1, .bit (y c) :: q, (y c != lsb l) :: bs, s, fun rest => ?_, by rw [List.range'_succ, List.map_cons, hq]⟩
          simp only [evaRevealLoop, h1, h2, h3, if_false, List.cons_append, recvBit, e, bind, Except.bind]
          rfl

theorem blks_append (a b : List Msg) : blks (a ++ b) = blks a ++ blks b := by simp [blks]
theorem bits_append (a b : List Msg) : bits (a ++ b) = bits a ++ bits b := by simp [bits]

theorem blks_bits (l : List Nat) (y : Nat → Bool) : blks (l.map fun i => Msg.bit (y i)) = [] ∧ bits (l.map fun i => Msg.bit (y i)) = l.map y := by
  constructor
  · simp [blks, List.filterMap_map, Function.comp_def]
  · simp [bits, List.filterMap_map, Function.comp_def]

/-- C87: whatever blocks and bits the evaluator of the ordinary backend is sent, in the order in which it asks for them, its code runs to the end: it
checks nothing. -/
theorem C87_no_check (E : Env) (cot : Nat → Block) (r : Nat → Bool) (x : Nat → Block) (y : Nat → Bool) : ∀ (ops : List Op) (e : Eva) (m c : Nat),
    ∃ k l q os e' s, (∀ rest, e.run E cot r ops (q ++ rest) = .ok (os, e', rest, s))
      ∧ blks q = (List.range' m k).map x ∧ bits q = (List.range' c l).map y ∧ q.length = k + l := by
  intro ops
  induction ops with
  | nil => intro e m c; exact ⟨0, 0, [], [], e, [], fun _ => rfl, rfl, rfl, rfl⟩
  | cons op ops ih =>
    intro e m c
    have one : ∃ k l q o e' s, (∀ rest, e.step E cot r op (q ++ rest) = .ok (o, e', rest, s))
        ∧ blks q = (List.range' m k).map x ∧ bits q = (List.range' c l).map y ∧ q.length = k + l := by
      cases op with
      | pub b => exact ⟨0, 0, [], _, _, _, fun _ => rfl, rfl, rfl, rfl⟩
      | inA b => exact ⟨0, 0, [], _, _, _, fun _ => rfl, rfl, rfl, rfl⟩
      | inB b => exact ⟨0, 0, [], _, _, _, fun _ => rfl, rfl, rfl, rfl⟩
      | xor i j => exact ⟨0, 0, [], _, _, _, fun _ => rfl, rfl, rfl, rfl⟩
      | not i => exact ⟨0, 0, [], _, _, _, fun _ => rfl, rfl, rfl, rfl⟩
      | and i j =>
        by_cases h : (isZero (e.get i) || isOne (e.get i) || isZero (e.get j) || isOne (e.get j)) = true
        · exact ⟨0, 0, [], none, e.push (e.get i &&& e.get j), [], fun _ => by simp only [Eva.step, evaAnd, h, if_true, bind, Except.bind, List.nil_append], rfl, rfl, rfl⟩
        · exact ⟨2, 0, [.blk (x m), .blk (x (m + 1))], none, Eva.push { e with gid := e.gid + 1 } (evalGate E (e.get i) (e.get j) (x m, x (m + 1)) e.gid), [],
            fun _ => by simp only [Eva.step, evaAnd, h, if_false, recvTable, List.cons_append, List.nil_append, bind, Except.bind]; rfl, rfl, rfl, rfl⟩
      | reveal p ws =>
        obtain ⟨k, q, bs, s, hq, hk⟩ := loop_any p y (ws.map e.get) c
        have hb := blks_bits (List.range' c k) y
        exact ⟨0, k, q, some bs, e, _, fun rest => by simp only [Eva.step, hq, bind, Except.bind]; rfl, by rw [hk]; exact hb.1, by rw [hk]; exact hb.2,
          by rw [hk]; simp⟩
    obtain ⟨k, l, q, o, e1, s, h1, h2, h3, h4⟩ := one
    obtain ⟨k', l', q', os, e2, s', g1, g2, g3, g4⟩ := ih e1 (m + k) (c + l)
    refine ⟨k + k', l + l', q ++ q', o.toList ++ os, e2, s ++ s', fun rest => ?_, ?_, ?_, ?_⟩
    · simp only [Eva.run, List.append_assoc, h1, g1, bind, Except.bind]
    · rw [blks_append, h2, g2, ← List.map_append]
      congr 1
      have := List.range'_append (s := m) (m := k) (n := k') (step := 1)
      simpa using this
    · rw [bits_append, h3, g3, ← List.map_append]
      congr 1
      have := List.range'_append (s := c) (m := l) (n := l') (step := 1)
      simpa using this
    · rw [List.length_append, h4, g4]; omega

end Verif.Props.GarblerDirect
