import Verif.Model.OpenFlip
import Verif.Spec.Flip
import Verif.Props.OfflineGC

/-! C90: openings to ALICE only are not authenticated. -/

namespace Verif.Props.OpenFlip
open Verif.Model Verif.Model.GC Verif.Lemmas
open Verif.Spec.Circuit (Party Op)
open Verif.Spec

/-! ### Ordinary backend -/

/-- `s` says which wires of the garbler do not have the label of a constant. -/
structure SecInv (n : Net) (w s : List Bool) : Prop where
  net : NetInv n w
  len : s.length = w.length
  sec : ∀ i, isPublic (n.gen.get i) = !Circuit.get s i

theorem get_push (s : List Bool) (b : Bool) (i : Nat) : Circuit.get (s ++ [b]) i = if i = s.length then b else Circuit.get s i := by
  simp only [Circuit.get]; exact getD_push s b false i

theorem sec_push {n : Net} {w s : List Bool} (h : SecInv n w s) {n' : Net} {lg : Block} {b : Bool}
    (hg : n'.gen.wires = n.gen.wires ++ [lg]) (hb : isPublic lg = !b) : ∀ i, isPublic (n'.gen.get i) = !Circuit.get (s ++ [b]) i := by
  intro i
  have := h.sec i
  simp only [Gen.get] at this ⊢
  rw [hg, getD_push, get_push, h.net.glen, h.len]
  split
  · exact hb
  · exact this

theorem rel_cases {delta g e : Block} {v s : Bool} (h : WRel delta g e v) (hs : isPublic g = !s) :
    (s = false ∧ g = publicLabel v) ∨ (s = true ∧ isPublic g = false) := by
  rcases h with ⟨a, _⟩ | ⟨a, _, _⟩
  · left; rw [a, pub_isPublic] at hs; exact ⟨by simpa using hs.symm, a⟩
  · right; rw [a] at hs; exact ⟨by simpa using hs.symm, a⟩

theorem and_public (E : Env) (n : Net) (i j : Nat) (w s : List Bool) (h : SecInv n w s) (hc : Clean E n (.and i j)) :
    isPublic (genAnd E n.gen (n.gen.get i) (n.gen.get j)).1
      = !((Circuit.get s i && Circuit.get s j) || (Circuit.get s i && Circuit.get w j) || (Circuit.get s j && Circuit.get w i)) := by
  rcases rel_cases (h.net.rel i) (h.sec i) with ⟨si, gi⟩ | ⟨si, gi⟩ <;> rcases rel_cases (h.net.rel j) (h.sec j) with ⟨sj, gj⟩ | ⟨sj, gj⟩
  · rw [si, sj, gi, gj]
    cases Circuit.get w i <;> cases Circuit.get w j <;> simp [genAnd, publicLabel, isPublic]
  · obtain ⟨z1, z2⟩ := isPublic_false gj
    rw [si, sj, gi]
    cases Circuit.get w i <;> simp [genAnd, publicLabel, z1, gj]
    simp [isPublic]
  · obtain ⟨z1, z2⟩ := isPublic_false gi
    rw [si, sj, gj]
    cases Circuit.get w j <;> simp [genAnd, publicLabel, z1, z2, gi]
    simp [isPublic]
  · obtain ⟨z1, z2⟩ := isPublic_false gi
    obtain ⟨y1, y2⟩ := isPublic_false gj
    rw [si, sj]
    simp only [genAnd, z1, z2, y1, y2, Bool.or_self, Bool.false_eq_true, if_false, Bool.and_self, Bool.true_or, Bool.not_true]
    exact (hc gi gj).1

theorem xor_public (E : Env) (n : Net) (i j : Nat) (w s : List Bool) (h : SecInv n w s) (hc : Clean E n (.xor i j)) :
    isPublic (genXor E n.gen.delta (n.gen.get i) (n.gen.get j)) = !(Circuit.get s i || Circuit.get s j) := by
  rcases rel_cases (h.net.rel i) (h.sec i) with ⟨si, gi⟩ | ⟨si, gi⟩ <;> rcases rel_cases (h.net.rel j) (h.sec j) with ⟨sj, gj⟩ | ⟨sj, gj⟩
  · rw [si, sj, gi, gj]
    cases Circuit.get w i <;> cases Circuit.get w j <;> simp [genXor, genNot, publicLabel, isPublic]
  · rw [si, sj]; simpa using (hc.1 (by rw [gj]; simp)).1
  · rw [si, sj]; simpa using (hc.1 (by rw [gi]; simp)).1
  · rw [si, sj]; simpa using (hc.1 (by rw [gi]; simp)).1

theorem not_public (E : Env) (n : Net) (i : Nat) (w s : List Bool) (h : SecInv n w s) (hc : Clean E n (.not i)) :
    isPublic (genNot n.gen.delta (n.gen.get i)) = !Circuit.get s i := by
  rcases rel_cases (h.net.rel i) (h.sec i) with ⟨si, gi⟩ | ⟨si, gi⟩
  · rw [si, gi]; cases Circuit.get w i <;> simp [genNot, publicLabel, isPublic]
  · rw [si]; simpa using hc gi

/-- One operation other than an opening. -/
theorem sec_step (E : Env) (n : Net) (w s : List Bool) (op : Op) (h : SecInv n w s) (hc : Clean E n op)
    (hop : ∀ p ws, op ≠ .reveal p ws) :
    ∃ n', n.step E op = .ok (none, n') ∧ SecInv n' (Circuit.next w op) (Circuit.nextSecret w s op) := by
  obtain ⟨o, n', e, hn, -⟩ := net_step E n w op h.net hc
  have len : ∀ b, (s ++ [b]).length = w.length + 1 := fun b => by simp [h.len]
  cases op with
  | pub b =>
    simp only [Net.step, Except.ok.injEq, Prod.mk.injEq] at e
    obtain ⟨rfl, rfl⟩ := e
    exact ⟨_, rfl, hn, by simp [Circuit.next, Circuit.newWire, Circuit.nextSecret, Circuit.newSecret, h.len],
      sec_push h (lg := publicLabel b) rfl (by rw [pub_isPublic]; rfl)⟩
  | inA b =>
    simp only [Net.step, Except.ok.injEq, Prod.mk.injEq] at e
    obtain ⟨rfl, rfl⟩ := e
    exact ⟨_, rfl, hn, by simp [Circuit.next, Circuit.newWire, Circuit.nextSecret, Circuit.newSecret, h.len],
      sec_push h (lg := _) rfl (by rw [sel_if]; exact hc.1)⟩
  | inB b =>
    have ht := h.net.toGen
    simp only [Net.step, ht, List.nil_append, recvBit, bind, Except.bind, Except.ok.injEq, Prod.mk.injEq] at e
    obtain ⟨rfl, rfl⟩ := e
    refine ⟨_, by simp only [Net.step, ht, List.nil_append, recvBit, bind, Except.bind], hn,
      by simp [Circuit.next, Circuit.newWire, Circuit.nextSecret, Circuit.newSecret, h.len], sec_push h (lg := _) rfl ?_⟩
    rw [sel_if, h.net.cot]; exact hc.1
  | xor i j =>
    simp only [Net.step, Except.ok.injEq, Prod.mk.injEq] at e
    obtain ⟨rfl, rfl⟩ := e
    exact ⟨_, rfl, hn, by simp [Circuit.next, Circuit.newWire, Circuit.nextSecret, Circuit.newSecret, h.len],
      sec_push h (lg := _) rfl (xor_public E n i j w s h hc)⟩
  | not i =>
    simp only [Net.step, Except.ok.injEq, Prod.mk.injEq] at e
    obtain ⟨rfl, rfl⟩ := e
    exact ⟨_, rfl, hn, by simp [Circuit.next, Circuit.newWire, Circuit.nextSecret, Circuit.newSecret, h.len],
      sec_push h (lg := _) rfl (not_public E n i w s h hc)⟩
  | and i j =>
    have e' := e
    simp only [Net.step, bind, Except.bind] at e
    split at e
    · cases e
    · simp only [Except.ok.injEq, Prod.mk.injEq] at e
      obtain ⟨rfl, e2⟩ := e
      refine ⟨n', e', hn, by simp [Circuit.next, Circuit.newWire, Circuit.nextSecret, Circuit.newSecret, h.len],
        sec_push h (lg := (genAnd E n.gen (n.gen.get i) (n.gen.get j)).1) ?_ (and_public E n i j w s h hc)⟩
      rw [← e2]
      simp only [Gen.push]
      unfold genAnd
      split <;> [rfl; split <;> [rfl; split <;> rfl]]
  | reveal p ws => exact absurd rfl (hop p ws)

/-- An opening leaves the state as it is. -/
theorem reveal_step (E : Env) (n : Net) (w : List Bool) (p : Party) (ws : List Nat) (h : NetInv n w) :
    ∃ o, n.step E (.reveal p ws) = .ok (some o, n) ∧ RevealOk o (p, ws.map (Circuit.get w)) := by
  obtain ⟨o, n', e, -, r⟩ := net_step E n w (.reveal p ws) h trivial
  simp only [Circuit.opened] at r
  cases o with
  | none => cases r
  | some o =>
  obtain ⟨r, -⟩ := List.forall₂_cons.mp r
  have hrel : ∀ i (h1 : i < (ws.map n.gen.get).length) (h2 : i < (ws.map n.eva.get).length)
      (h3 : i < (ws.map (Circuit.get w)).length),
      WRel n.gen.delta (ws.map n.gen.get)[i] (ws.map n.eva.get)[i] (ws.map (Circuit.get w))[i] := by
    intro i h1 h2 h3
    simp only [List.getElem_map]
    exact h.rel _
  obtain ⟨eb, s, e1, e2, e3, e4⟩ := evaRevealLoop_spec p n.gen.delta h.delta (ws.map n.gen.get) (ws.map n.eva.get)
    (ws.map (Circuit.get w)) [] (by simp) (by simp) hrel
  rw [List.append_nil] at e1
  have hn : n' = n := by
    have b1 := h.toEva
    have b2 := h.toGen
    by_cases hp : p = .pub
    · subst hp
      obtain ⟨gb, f1, _⟩ := e4 [.bits eb, .dig (E.hash (ws.map n.eva.get))]
      simp only [Net.step, b1, b2, List.nil_append, e1, if_true, f1, genPublicCheck, recvBits, recvDig, bind, Except.bind] at e
      split at e
      · cases e
      · rename_i k1
        split at k1
        · cases k1
        · rename_i k2
          split at k1
          · cases k1
          · rename_i k3
            simp only [Except.ok.injEq] at k1
            subst k1
            simp only [Except.ok.injEq, Prod.mk.injEq] at e
            obtain ⟨-, e⟩ := e
            rw [← e]
            obtain ⟨g, ev, te, tg⟩ := n
            simp only at b1 b2
            subst b1 b2; rfl
    · obtain ⟨gb, f1, f2⟩ := e4 []
      rw [List.append_nil] at f1
      simp only [Net.step, b1, b2, List.nil_append, e1, hp, if_false, List.append_nil, f1, bind, Except.bind, Except.ok.injEq,
        Prod.mk.injEq] at e
      obtain ⟨-, e⟩ := e
      rw [← e]
      obtain ⟨g, ev, te, tg⟩ := n
      simp only at b1 b2
      subst b1 b2; rfl
  subst hn
  exact ⟨o, e, r⟩

/-- The loop of the garbler on changed bits. -/
theorem genLoop_flip (f : Nat → Bool) (n : Net) (w s : List Bool) (h : SecInv n w s) (ws : List Nat) : ∀ (k : Nat),
    genRevealLoop .alice (ws.map n.gen.get) (flipBits f k (ws.map n.eva.get))
      = .ok (ws.mapIdx (fun i x => Circuit.get w x ^^ (f (k + i) && Circuit.get s x)), []) := by
  induction ws with
  | nil => intro k; rfl
  | cons x ws ih =>
    intro k
    have hi := ih (k + 1)
    have hm : (fun i x => Circuit.get w x ^^ (f (k + 1 + i) && Circuit.get s x))
        = (fun i x => Circuit.get w x ^^ (f (k + (i + 1)) && Circuit.get s x)) := by
      funext i x; rw [show k + 1 + i = k + (i + 1) by omega]
    rw [hm] at hi
    rw [List.map_cons, List.map_cons, List.mapIdx_cons]
    have hs := h.sec x
    rcases h.net.rel x with ⟨a, b⟩ | ⟨a, b, c⟩
    · rw [a, pub_isPublic] at hs
      have hs : Circuit.get s x = false := by simpa using hs.symm
      rw [a, b, hs]
      cases Circuit.get w x <;> simp [genRevealLoop, flipBits, publicLabel, hi, bind, Except.bind]
    · rw [a] at hs
      have hs : Circuit.get s x = true := by simpa using hs.symm
      obtain ⟨a1, a2⟩ := isPublic_false a
      obtain ⟨b1, b2⟩ := isPublic_false b
      have hbit : ((lsb (n.eva.get x) != f k) != lsb (n.gen.get x)) = (Circuit.get w x ^^ f k) := by
        rw [c, lsb_xor, lsb_sel _ _ h.net.delta]
        cases lsb (n.gen.get x) <;> cases Circuit.get w x <;> cases f k <;> rfl
      simp only [genRevealLoop, flipBits, a1, a2, b1, b2, Bool.or_self, Bool.false_eq_true, if_false, if_true, recvBit, bind,
        Except.bind, hi, hs, hbit, Nat.add_zero, Bool.and_true]

theorem flip_run (E : Env) (F : Nat → Nat → Bool) (ops : List Op) : ∀ (k : Nat) (n : Net) (w s : List Bool),
    SecInv n w s → NoCoincidence E n ops →
    ∃ os n', Net.runFlip E F k n ops = .ok (os, n') ∧ List.Forall₂ RevealOk os (Circuit.openedFlip false F k w s ops)
      ∧ n'.toEva = [] ∧ n'.toGen = [] ∧ n'.eva.gid = n'.gen.gid := by
  induction ops with
  | nil => intro k n w s h _; exact ⟨[], n, rfl, .nil, h.net.toEva, h.net.toGen, h.net.gid⟩
  | cons op ops ih =>
    intro k n w s h hc
    by_cases hr : ∃ p ws, op = .reveal p ws
    · obtain ⟨p, ws, rfl⟩ := hr
      obtain ⟨o, e, r⟩ := reveal_step E n w p ws h.net
      obtain ⟨os, n', e2, r2, q⟩ := ih (k + 1) n w s h (hc.2 _ _ e)
      cases p with
      | alice =>
        have hl := genLoop_flip (F k) n w s h ws 0
        have ht := h.net.toGen
        refine ⟨(.alice, _, []) :: os, n', ?_, .cons ⟨rfl, fun _ => rfl, fun hh => absurd rfl hh⟩ r2, q⟩
        have hn : ({ n with toGen := [] } : Net) = n := by rw [← ht]
        simp only [Net.runFlip, Net.stepFlip, ht, List.nil_append, hl, bind, Except.bind, hn, e2, Option.toList, List.singleton_append,
          Nat.zero_add, Bool.false_or]
      | bob =>
        refine ⟨o :: os, n', ?_, .cons r r2, q⟩
        simp only [Net.runFlip, Net.stepFlip, e, e2, bind, Except.bind, Option.toList, List.singleton_append]
      | pub =>
        refine ⟨o :: os, n', ?_, .cons r r2, q⟩
        simp only [Net.runFlip, Net.stepFlip, e, e2, bind, Except.bind, Option.toList, List.singleton_append]
    · have hop : ∀ p ws, op ≠ .reveal p ws := fun p ws hh => hr ⟨p, ws, hh⟩
      obtain ⟨n1, e, h1⟩ := sec_step E n w s op h hc.1 hop
      obtain ⟨os, n', e2, r2, q⟩ := ih (k + 1) n1 _ _ h1 (hc.2 _ _ e)
      refine ⟨os, n', ?_, ?_, q⟩
      · cases op with
        | reveal p ws => exact absurd rfl (hop p ws)
        | _ => simp only [Net.runFlip, Net.stepFlip, e, e2, bind, Except.bind, Option.toList, List.nil_append]
      · cases op with
        | reveal p ws => exact absurd rfl (hop p ws)
        | _ => exact r2

/-- **C90, ordinary backend.**  An evaluator may change any of the bits it sends in openings to ALICE only, at every opening as it likes:
nothing is noticed, all messages are consumed, ALICE's values are changed exactly on the wires that depend on an input, and the openings to
BOB and PUBLIC before and after are those of the plain program. -/
theorem C90_ordinary (E : Env) (d : Block) (F : Nat → Nat → Bool) (ops : List Op)
    (hc : NoCoincidence E { gen := { delta := setDelta d }, eva := {} } ops) :
    ∃ os n', Net.runFlip E F 0 { gen := { delta := setDelta d }, eva := {} } ops = .ok (os, n')
      ∧ List.Forall₂ RevealOk os (Circuit.openedFlip false F 0 [] [] ops) ∧ n'.toEva = [] ∧ n'.toGen = [] ∧ n'.eva.gid = n'.gen.gid := by
  apply flip_run E F ops 0 _ [] [] _ hc
  refine ⟨⟨C16_delta d, rfl, rfl, rfl, rfl, rfl, rfl, rfl, fun i => Or.inl ⟨?_, ?_⟩⟩, rfl, fun i => ?_⟩
  · simp [Gen.get, Circuit.get, publicLabel]
  · simp [Eva.get, Circuit.get, publicLabel]
  · simp [Gen.get, Circuit.get, isPublic]

/-! ### Offline/online backend -/

theorem onLoop_flip (E : Env) (f : Nat → Bool) {F m : OffNet} {n : OnNet} {w : List Bool} (h : Replay E F m n w) (ws : List Nat) :
    ∀ (k : Nat), onGenReveal .alice (ws.map (n.gen.get E)) (onFlipBits f k (ws.map (n.eva.get E)))
      = .ok (ws.mapIdx (fun i x => Circuit.get w x ^^ f (k + i)), []) := by
  have hg : ∀ x, n.gen.get E x = m.gen.get E x := by
    intro x; simp only [OnGen.get, OffGen.get, h.gwires, h.ndelta]
  induction ws with
  | nil => intro k; rfl
  | cons x ws ih =>
    intro k
    have hi := ih (k + 1)
    have hm : (fun i x => Circuit.get w x ^^ f (k + 1 + i)) = (fun i x => Circuit.get w x ^^ f (k + (i + 1))) := by
      funext i x; rw [show k + 1 + i = k + (i + 1) by omega]
    rw [hm] at hi
    have hbit : ((lsb (n.eva.get E x) != f k) != lsb (n.gen.get E x)) = (Circuit.get w x ^^ f k) := by
      rw [h.rel x, hg x, lsb_xor, lsb_sel _ _ h.delta]
      cases lsb (m.gen.get E x) <;> cases Circuit.get w x <;> cases f k <;> rfl
    rw [List.map_cons, List.map_cons, List.mapIdx_cons]
    simp only [onGenReveal, onFlipBits, recvBit, bind, Except.bind, hi, hbit, Nat.add_zero]

theorem openedFlip_cons (F : Nat → Nat → Bool) (k : Nat) (w s : List Bool) (op : Op) (ops : List Op) (h : ∀ ws, op ≠ .reveal .alice ws) :
    Circuit.openedFlip true F k w s (op :: ops)
      = Circuit.opened w [op] ++ Circuit.openedFlip true F (k + 1) (Circuit.next w op) (Circuit.nextSecret w s op) ops := by
  cases op with
  | reveal p ws =>
    cases p with
    | alice => exact absurd rfl (h ws)
    | _ => simp [Circuit.openedFlip, Circuit.opened, Circuit.next, Circuit.newWire, Circuit.nextSecret, Circuit.newSecret]
  | _ => simp [Circuit.openedFlip, Circuit.opened, Circuit.next]

theorem on_flip_run (E : Env) (F : Nat → Nat → Bool) (f : OffNet) (ops : List Op) :
    ∀ (ops' : List Op) (k : Nat) (m : OffNet) (n : OnNet) (w s : List Bool),
    List.Forall₂ SameShape ops ops' → m.run E ops = .ok f → Replay E f m n w →
    ∃ os n', OnNet.runFlip E F k n ops' = .ok (os, n') ∧ List.Forall₂ RevealOk os (Circuit.openedFlip true F k w s ops')
      ∧ n'.toEva = [] ∧ n'.toGen = [] ∧ n'.gen.gid = f.gen.gid ∧ n'.eva.gid = f.gen.gid := by
  induction ops with
  | nil =>
    intro ops' k m n w s hs hr h
    cases hs
    simp only [OffNet.run, Except.ok.injEq] at hr
    subst hr
    exact ⟨[], n, rfl, .nil, h.toEva, h.toGen, h.ggid, h.egid⟩
  | cons op ops ih =>
    intro ops' k m n w s hs hr h
    cases hs with
    | cons h1 h2 =>
      rename_i op' ops''
      obtain ⟨e1, q1, p1⟩ := off_step E m h.off op
      simp only [OffNet.run, e1, bind, Except.bind] at hr
      obtain ⟨f', e2, _, p2, _⟩ := off_run E ops _ q1
      have hf : f' = f := by rw [e2] at hr; exact Except.ok.inj hr
      subst hf
      by_cases ha : ∃ ws, op' = .reveal .alice ws
      · obtain ⟨ws, rfl⟩ := ha
        have hop : op = .reveal .alice ws := by
          cases op <;> simp_all [SameShape]
        subst hop
        have hm : offNext E m (.reveal .alice ws) = m := by simp [offNext]
        rw [hm] at hr
        obtain ⟨os, n2, s2, o2, rest⟩ := ih ops'' (k + 1) m n w s h2 hr h
        have hl := onLoop_flip E (F k) h ws 0
        have ht := h.toGen
        have hn : ({ n with toGen := [] } : OnNet) = n := by rw [← ht]
        refine ⟨(.alice, _, []) :: os, n2, ?_, .cons ⟨rfl, fun _ => rfl, fun hh => absurd rfl hh⟩ o2, rest⟩
        simp only [OnNet.runFlip, OnNet.stepFlip, ht, List.nil_append, hl, bind, Except.bind, hn, s2, Option.toList,
          List.singleton_append, Nat.zero_add, Bool.true_or, Bool.and_true]
      · have hna : ∀ ws, op' ≠ .reveal .alice ws := fun ws hh => ha ⟨ws, hh⟩
        obtain ⟨o, n1, s1, r1, o1⟩ := on_step E f' m n w op op' h h1 p2
        obtain ⟨os, n2, s2, o2, rest⟩ := ih ops'' (k + 1) _ n1 _ (Circuit.nextSecret w s op') h2 hr r1
        refine ⟨o.toList ++ os, n2, ?_, ?_, rest⟩
        · have hst : n.stepFlip E (F k) op' = n.step E op' := by
            cases op' with
            | reveal p ws => cases p <;> first | rfl | exact absurd rfl (hna ws)
            | _ => rfl
          simp only [OnNet.runFlip, hst, s1, s2, bind, Except.bind]
        · rw [openedFlip_cons F k w s op' ops'' hna]
          exact List.rel_append o1 o2

/-- The bits to change depend only on the operations from here on. -/
theorem openedFlip_congr (F G : Nat → Nat → Bool) (ops : List Op) : ∀ (k : Nat) (w s : List Bool), (∀ j, k ≤ j → F j = G j) →
    Circuit.openedFlip true F k w s ops = Circuit.openedFlip true G k w s ops := by
  induction ops with
  | nil => intro k w s _; rfl
  | cons op ops ih =>
    intro k w s h
    have hh : ∀ j, k + 1 ≤ j → F j = G j := fun j hj => h j (by omega)
    cases op with
    | reveal p ws => cases p <;> simp only [Circuit.openedFlip, ih (k + 1) _ _ hh, h k (Nat.le_refl k)]
    | _ => simp only [Circuit.openedFlip, ih (k + 1) _ _ hh]

/-- Changing the right bits shows any values. -/
theorem flip_shows (V : Nat → Nat → Bool) (ops : List Op) : ∀ (k : Nat) (w s : List Bool),
    ∃ F, Circuit.openedFlip true F k w s ops = Circuit.openedShown V k w ops := by
  induction ops with
  | nil => intro k w s; exact ⟨fun _ _ => false, rfl⟩
  | cons op ops ih =>
    intro k w s
    cases op with
    | reveal p ws =>
      obtain ⟨F, hF⟩ := ih (k + 1) w s
      cases p with
      | alice =>
        refine ⟨fun j i => if j = k then V k i ^^ Circuit.get w (ws.getD i 0) else F j i, ?_⟩
        have := openedFlip_congr (fun j i => if j = k then V k i ^^ Circuit.get w (ws.getD i 0) else F j i) F ops (k + 1) w s
          (fun j hj => by funext i; rw [if_neg (by omega)])
        simp only [Circuit.openedFlip, Circuit.openedShown, this, hF, if_true, Bool.true_or, Bool.and_true]
        congr 2
        apply List.ext_getElem
        · simp
        · intro i h1 h2
          have hi : i < ws.length := by simpa using h1
          simp only [List.getElem_mapIdx, List.getD_eq_getElem?_getD, List.getElem?_eq_getElem hi, Option.getD_some]
          cases Circuit.get w ws[i] <;> cases V k i <;> rfl
      | bob => exact ⟨F, by simp only [Circuit.openedFlip, Circuit.openedShown, hF]⟩
      | pub => exact ⟨F, by simp only [Circuit.openedFlip, Circuit.openedShown, hF]⟩
    | _ =>
      obtain ⟨F, hF⟩ := ih (k + 1) (Circuit.next w _) (Circuit.nextSecret w s _)
      exact ⟨F, by simp only [Circuit.openedFlip, Circuit.openedShown]; exact hF⟩

/-- **C90, offline/online backend.**  Whatever the changes: both phases succeed, ALICE's values are changed exactly as the evaluator likes,
also on constants, and the openings to BOB and PUBLIC are those of the plain program. -/
theorem C90_online (E : Env) (d : Block) (F : Nat → Nat → Bool) (ops ops' : List Op) (hs : List.Forall₂ SameShape ops ops') :
    ∃ f os n', OffNet.run E { gen := { delta := setDelta d } } ops = .ok f
      ∧ OnNet.runFlip E F 0 (syncOnline f) ops' = .ok (os, n')
      ∧ List.Forall₂ RevealOk os (Circuit.openedFlip true F 0 [] [] ops')
      ∧ n'.toEva = [] ∧ n'.toGen = [] ∧ n'.gen.gid = f.gen.gid ∧ n'.eva.gid = f.gen.gid := by
  obtain ⟨f, e, _, _, hd⟩ := off_run E ops { gen := { delta := setDelta d } } rfl
  obtain ⟨os, n', r, rest⟩ := on_flip_run E F f ops ops' 0 _ _ [] [] hs e (replay_start E d f hd)
  exact ⟨f, os, n', e, r, rest⟩

/-- **C90, any values.**  For all values the evaluator may want ALICE to see in the openings to ALICE only there are changes that show
them, with the openings to BOB and PUBLIC untouched and nothing noticed. -/
theorem C90_shown (E : Env) (d : Block) (V : Nat → Nat → Bool) (ops ops' : List Op) (hs : List.Forall₂ SameShape ops ops') :
    ∃ F f os n', OffNet.run E { gen := { delta := setDelta d } } ops = .ok f
      ∧ OnNet.runFlip E F 0 (syncOnline f) ops' = .ok (os, n')
      ∧ List.Forall₂ RevealOk os (Circuit.openedShown V 0 [] ops') := by
  obtain ⟨F, hF⟩ := flip_shows V ops' 0 [] []
  obtain ⟨f, os, n', e, r, a, -⟩ := C90_online E d F ops ops' hs
  exact ⟨F, f, os, n', e, r, hF ▸ a⟩

/-! ### Concrete cases -/

/-- The hypothesis of `C90_ordinary` is met for all inputs by a program with every operation. -/
example : ∀ a b, NoCoincidence exEnv { gen := { delta := setDelta 0xFEDCBA9876543210FEDCBA9876543210#128 }, eva := {} } (exOps a b) := by
  decide +kernel

/-- In it ALICE's first two bits can be changed, not the third, which is a constant; the public opening is as in the plain program. -/
example : ∀ a b, Circuit.openedFlip false (fun _ _ => true) 0 [] [] (exOps a b)
    = [(.alice, [!(a && b), !(a != b), true]), (.bob, [!(a && b), a != b, false]),
       (.pub, [a && b, false, !(a && b) && (a != b), !(!(a && b) && (a != b)), true])] := by
  decide +kernel

example (a b : Bool) : List.Forall₂ SameShape (exOps false false) (exOps a b) := by repeat' constructor

/-- Both backends with a false opening: ALICE sees `1 ∧ 1 = 0`. -/
example : Circuit.opened [] [.inA true, .inB true, .and 0 1, .reveal .alice [2]] = [(.alice, [true])]
    ∧ Circuit.openedShown (fun _ _ => false) 0 [] [.inA true, .inB true, .and 0 1, .reveal .alice [2]] = [(.alice, [false])] := by
  decide +kernel

end Verif.Props.OpenFlip
