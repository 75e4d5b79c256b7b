import Verif.Lemmas.Drift

/-! C82: a garbler of the offline/online backend that changes tables in the last S-boxes of the cipher reads the key off the digest of one opened block of key stream. -/

namespace Verif.Props.GarblerKey
open Verif.Model Verif.Model.GC Verif.Lemmas Verif.Lemmas.Drift Verif.Props
open Verif.Spec.Circuit (Party Op gates onWire drift Calm)
open Verif.Spec
open Verif.Props.GarblerProbe (answer run_append prefix_run record_append run_single run_one reveal_wires opened_append adds)
open Verif.Props.EvaluatorView (blindA theirs)
open Verif.Props.EvaluatorViewOnline (start off_shape shape_refl)

theorem next_length (w : List Bool) (op : Op) : (Circuit.next w op).length = w.length + adds op := by
  cases op <;> simp [Circuit.next, Circuit.newWire, adds]

theorem values_length (P : Nat → Block × Block) (c : Nat → Bool) : ∀ (ops : List Op) (w : List Bool) (st : Nat × List Block), w.length = st.2.length →
    (ops.foldl Circuit.next w).length = (ops.foldl (drift P c) st).2.length := by
  intro ops
  induction ops with
  | nil => intro w st h; exact h
  | cons op ops ih => intro w st h; exact ih _ _ (by rw [next_length, drift_length, h])

theorem foldl_next : ∀ (ops : List Op) (w : List Bool), ∃ t, ops.foldl Circuit.next w = w ++ t
  | [], w => ⟨[], by simp⟩
  | op :: ops, w => by
    obtain ⟨t, h⟩ := foldl_next ops (Circuit.next w op)
    exact ⟨(Circuit.newWire w op).toList ++ t, by rw [List.foldl_cons, h, ← List.append_assoc]; rfl⟩

theorem calm_append {P : Nat → Block × Block} {c : Nat → Bool} : ∀ (a b : List Op) (st : Nat × List Block), Calm P c st (a ++ b) ↔ Calm P c st a ∧ Calm P c (a.foldl (drift P c) st) b := by
  intro a
  induction a with
  | nil => intro b st; exact ⟨fun h => ⟨trivial, h⟩, fun h => h.2⟩
  | cons op a ih =>
    intro b st
    have := ih b (drift P c st op)
    constructor
    · rintro ⟨x, y⟩; exact ⟨⟨x, (this.1 y).1⟩, (this.1 y).2⟩
    · rintro ⟨⟨x, y⟩, z⟩; exact ⟨x, this.2 ⟨y, z⟩⟩

/-- **C82, the digest.**  The garbler adds blocks with lowest bit zero to the rows of any number of tables, such that nothing gets to the operand of a gate.  What the evaluator opens in the whole session is what it opens
otherwise, which is right, and the message at a public opening is the digest of the labels with the blocks on them: a function of the lowest bits of the labels, which are the values and what the
garbler knows. -/
theorem C82_digest (E : Env) (d : Block) (P : Nat → Block × Block) (hP : ∀ k, lsb (P k).1 = false ∧ lsb (P k).2 = false) (pre rest : List Op) (ws : List Nat)
    (hw : ∀ x ∈ ws, x < (pre.foldl Circuit.next []).length) (hq : ∀ c, Calm P c (0, []) (pre ++ [Op.reveal .pub ws] ++ rest))
    (ops₀ : List Op) (hs : List.Forall₂ SameShape ops₀ (pre ++ [Op.reveal .pub ws] ++ rest)) :
    ∃ f os n l e' s s', 
      (start d).run E ops₀ = .ok f
      ∧ (start d).runAdd E P ops₀ = .ok (added P f)
      ∧ (syncOnline f).run E (pre ++ [Op.reveal .pub ws] ++ rest) = .ok (os, n)
      ∧ (syncOnline f).recordEva E (pre ++ [Op.reveal .pub ws] ++ rest) = .ok (l, n)
      ∧ List.Forall₂ RevealOk os (Circuit.opened [] (pre ++ [Op.reveal .pub ws] ++ rest))
      ∧ (syncOnline (added P f)).eva.run E ((pre ++ [Op.reveal .pub ws] ++ rest).map blindA) l
        = .ok (theirs os, e', [], s ++ answer E .pub (ws.map (Circuit.get (pre.foldl Circuit.next [])))
          (ws.map fun x => n.gen.get E x ^^^ sel (Circuit.get (pre.foldl Circuit.next []) x) (setDelta d)
            ^^^ onWire (pre.foldl (drift P fun x => Circuit.get ((pre ++ [Op.reveal .pub ws] ++ rest).foldl Circuit.next []) x ^^ lsb (n.gen.get E x)) (0, [])).2 x) ++ s') := by
  obtain ⟨f, hf, hfp⟩ := off_runAdd E P ops₀ (start d) rfl rfl
  have hf0 := hf
  rw [off_shape E _ hs] at hf
  obtain ⟨f', e, _, _, hd⟩ := off_run E (pre ++ [Op.reveal .pub ws] ++ rest) (start d) rfl
  have : f' = f := by rw [e] at hf; exact Except.ok.inj hf
  subst this
  have hf1 : (start d).run E (pre ++ ([Op.reveal .pub ws] ++ rest)) = .ok f' := by rw [← List.append_assoc]; exact hf
  obtain ⟨os1, n1, m1, l1, s1, a1, a2, a3, a4, a5, a6⟩ := prefix_run E f' pre _ _ _ [] hf1 (replay_start E d f' hd)
  obtain ⟨os2, n2, m2, l2, s2, b1, b2, b3, b4, b5, b6⟩ := prefix_run E f' [Op.reveal .pub ws] _ _ _ _ a2 a3
  have b2' : m2.run E (rest ++ []) = .ok f' := by rw [List.append_nil]; exact b2
  obtain ⟨os3, n3, m3, l3, s3, c1, c2, c3, c4, c5, c6⟩ := prefix_run E f' rest [] _ _ _ b2' b3
  have hm3 : m3 = f' := by simp only [OffNet.run, Except.ok.injEq] at c2; exact c2
  subst hm3
  set w := pre.foldl Circuit.next [] with hwd
  have hw2 : [Op.reveal .pub ws].foldl Circuit.next w = w := by
    simp only [List.foldl_cons, List.foldl_nil, Circuit.next, Circuit.newWire, Option.toList_none, List.append_nil]
  rw [hw2] at c3 c6
  have hfin : (pre ++ [Op.reveal .pub ws] ++ rest).foldl Circuit.next [] = rest.foldl Circuit.next w := by
    rw [List.foldl_append, List.foldl_append, hw2]
  set v := (pre ++ [Op.reveal .pub ws] ++ rest).foldl Circuit.next [] with hv
  rw [← hfin] at c3
  set c : Nat → Bool := fun x => Circuit.get v x ^^ lsb (n3.gen.get E x) with hcd
  -- the labels at the end
  have hlab : ∀ x, n3.eva.get E x = n3.gen.get E x ^^^ sel (Circuit.get v x) (setDelta d) := by
    intro x
    have h1 : n3.gen.get E x = m3.gen.get E x := by unfold OnGen.get OffGen.get; rw [c3.gwires, c3.ndelta]
    rw [c3.rel x, h1, hd]
    rfl
  have hc : ∀ x, c x = lsb (n3.eva.get E x) := by
    intro x
    have : n3.gen.get E x = m3.gen.get E x := by unfold OnGen.get OffGen.get; rw [c3.gwires, c3.ndelta]
    rw [hcd, c3.rel x, lsb_xor, lsb_sel _ _ c3.delta]
    simp only [this]
    cases lsb (m3.gen.get E x) <;> cases Circuit.get v x <;> rfl
  -- the evaluator
  obtain ⟨o2, g2, t2⟩ := run_one (b5 l3)
  have hwires := reveal_wires g2
  have c5' := c5 []
  rw [List.append_nil] at c5'
  have st3 := stay E _ _ _ c5'
  have hlen2 : n2.eva.wires.length = n1.eva.wires.length := by rw [hwires]
  have back : ∀ x < n1.eva.wires.length, n3.eva.get E x = n1.eva.get E x := by
    intro x hx
    rw [st3.2 x (by omega)]
    unfold OnEva.get
    rw [hwires]
  have hq0 := hq c
  rw [List.append_assoc, calm_append, calm_append] at hq0
  obtain ⟨q1, q2, q3⟩ := hq0
  have off0 : Off E P (0, []) (syncOnline m3).eva (syncOnline (added P m3)).eva := by
    refine ⟨rfl, rfl, rfl, rfl, rfl, rfl, ?_, ?_, rfl⟩
    · intro i
      have : onWire [] i = 0#128 := by unfold onWire; simp
      rw [this, BitVec.xor_zero]
      rfl
    · intro i
      have : onWire [] i = 0#128 := by unfold onWire; simp
      rw [this]
      rfl
  obtain ⟨e1', s1', p1, off1⟩ := run_off E hP (c := c) (pre.map blindA) (0, []) _ _ off0 (blind_calm P c pre _ q1) _ (a5 (l2 ++ l3)) (by
    intro i hi
    rw [hc i, back i hi])
  rw [blind_drift] at off1
  set D := (pre.foldl (drift P c) (0, [])) with hD
  obtain ⟨e2', s2', p2, off2, -, q4⟩ := alone_off E hP (c := c) off1 (.reveal .pub ws) (by simp) (by
    intro i hi
    rw [← off1.len] at hi
    rw [hc i, back i hi]) (l2 ++ l3) g2
  obtain ⟨bs, hbs, hs2⟩ := q4 ws rfl
  obtain ⟨e3', s3', p3, off3⟩ := run_off E hP (c := c) (rest.map blindA) _ _ _ off2 (blind_calm P c rest _ q3) _ c5' (by
    intro i _
    exact hc i)
  -- the values
  have hv2 : bs = ws.map (Circuit.get w) := by
    rw [hbs] at t2
    have ho : Circuit.opened w [Op.reveal .pub ws] = [(.pub, ws.map (Circuit.get w))] := rfl
    rw [ho] at b6
    cases b6 with
    | cons hx hy =>
      cases hy
      obtain ⟨x1, -, x3⟩ := hx
      simp only [theirs, List.map_cons, List.map_nil, Option.toList_some, List.cons.injEq, and_true] at t2
      rw [← t2]
      exact x3 (by rw [x1]; simp)
  have hlw : w.length = n1.eva.wires.length := by
    rw [off1.len, hwd, hD]
    exact values_length P c pre [] (0, []) rfl
  have hl : (ws.map fun x => n1.eva.get E x ^^^ onWire D.2 x)
      = ws.map fun x => n3.gen.get E x ^^^ sel (Circuit.get w x) (setDelta d) ^^^ onWire D.2 x := by
    refine List.map_congr_left fun x hx => ?_
    have hx := hw x hx
    have hg : Circuit.get v x = Circuit.get w x := by
      rw [hfin]
      unfold Circuit.get
      obtain ⟨t, ht⟩ := foldl_next rest w
      rw [ht, List.getD_append _ _ _ _ hx]
    rw [← back x (by omega), hlab x, hg]
  refine ⟨m3, os1 ++ os2 ++ os3, n3, l1 ++ l2 ++ l3, e3', s1', s3', hf0, hfp, ?_, ?_, ?_, ?_⟩
  · rw [on_run_append, on_run_append, a1]
    simp only [bind, Except.bind]
    rw [b1]
    simp only
    rw [c1]
  · exact record_append E _ _ _ (record_append E _ _ _ a4 b4) c4
  · rw [opened_append, opened_append]
    refine List.rel_append (List.rel_append a6 b6) ?_
    rw [List.foldl_append, hw2]
    exact c6
  · have r1 := run_append E [Op.reveal .pub ws] (pre.map blindA) _ _ p1 (by rw [run_single, p2])
    have r2 := run_append E (rest.map blindA) _ _ _ r1 p3
    rw [List.map_append, List.map_append]
    have hq : l1 ++ l2 ++ l3 = l1 ++ (l2 ++ l3) := by simp
    rw [hq]
    have ht : theirs (os1 ++ os2 ++ os3) = theirs os1 ++ o2.toList ++ theirs os3 := by
      rw [← t2]; simp [theirs]
    rw [ht, ← hv2, ← hl, ← hs2]
    exact r2

/-- A gate with both rows changed whose output is added to another wire and opened; a gate follows that uses neither. -/
example (a b : Bool) : ∀ c, Calm (fun k => if k = 0 then (2, 4) else (0, 0)) c (0, [])
    ([Op.inA a, .inB b, .and 0 1, .xor 0 2] ++ [Op.reveal .pub [3]] ++ [.and 0 1, .reveal .pub [4]]) := by
  intro c
  simp [Calm, drift, onWire]

/-- The condition does not hold if the output goes on to a gate and the operand's bit is set. -/
example (a b : Bool) : ¬ Calm (fun k => if k = 0 then (2, 4) else (0, 0)) (fun _ => true) (0, []) [Op.inA a, .inB b, .and 0 1, .and 0 2] := by
  simp [Calm, drift, onWire]

end Verif.Props.GarblerKey
