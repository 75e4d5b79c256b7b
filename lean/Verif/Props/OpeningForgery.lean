import Verif.Props.EvaluatorAdvantage

/-!
How often a forged opening is accepted in the offline/online backend (C72).  At a PUBLIC opening the evaluator sends bits and the digest of the labels.  By C19 the garbler
accepts wrong bits only if the digest of two different lists is the same or the evaluator sends the sum of a label it holds and the offset.  Here the second case is counted:
whatever the evaluator computes from everything it has seen up to the opening, with more questions for the function under the hash, it finds the offset for a small part of
all draws only.
-/

namespace Verif.Props.EvaluatorBound
open Verif.Model Verif.Model.GC Verif.Lemmas Verif.Lemmas.Sampling
open Verif.Spec.Circuit (Party Op)
open Verif.Spec
open Verif.Props (SameShape Replay Prefix offNext off_step off_run on_step replay_start C16_delta setDelta_idem C19_online)
open Verif.Props.EvaluatorView (blindA toBob Ask entry)
open Verif.Props.EvaluatorViewOnline

/-! ### The first part of a program -/

theorem masks_append (E : Env) (ra W : Nat → Block) (b : List Op) : ∀ (a : List Op) (S : Held) (w : List Bool),
    masks E ra W S w (a ++ b) = masks E ra W S w a ++ masks E ra W (final E ra W S a) (a.foldl Circuit.next w) b
  | [], _, _ => rfl
  | op :: a, S, w => by simp only [List.cons_append, masks, masks_append E ra W b a, List.append_assoc, final, List.foldl_cons]

theorem slots_append (E : Env) (ra W : Nat → Block) (b : List Op) : ∀ (a : List Op) (S : Held),
    slots E ra W S (a ++ b) = slots E ra W S a ++ slots E ra W (final E ra W S a) b
  | [], _ => rfl
  | op :: a, S => by simp only [List.cons_append, slots, slots_append E ra W b a, List.append_assoc, final]

theorem valsA_append (E : Env) (ra va vt : Nat → Block) (b : List Op) : ∀ (a : List Op) (S : Held),
    valsA E ra va vt S (a ++ b) = valsA E ra va vt S a ++ valsA E ra va vt (final E ra (evens va) S a) b
  | [], _ => rfl
  | op :: a, S => by simp only [List.cons_append, valsA, valsA_append E ra va vt b a, List.append_assoc, final]

theorem valsH_append (E : Env) (ra va vt : Nat → Block) (d : Block) (b : List Op) : ∀ (a : List Op) (S : Held) (w : List Bool),
    valsH E ra va vt d S w (a ++ b) = valsH E ra va vt d S w a ++ valsH E ra va vt d (final E ra (evens va) S a) (a.foldl Circuit.next w) b
  | [], _, _ => rfl
  | op :: a, S, w => by simp only [List.cons_append, valsH, valsH_append E ra va vt d b a, List.append_assoc, final, List.foldl_cons]

theorem Fits.first {E : Env} {P : Block → Block} {ra va vt : Nat → Block} {d : Block} {S : Held} {w : List Bool} {a b : List Op}
    (h : Fits E P ra va vt d S w (a ++ b)) : Fits E P ra va vt d S w a := by
  obtain ⟨h1, h2⟩ := h
  rw [slots_append, valsA_append, List.map_append] at h1
  rw [slots_append, valsH_append, List.map_append] at h2
  exact ⟨(List.append_inj h1 (by rw [List.length_map, slots_length, valsA_length])).1, (List.append_inj h2 (by rw [List.length_map, slots_length, valsH_length])).1⟩

theorem allInputs_append (a b : List Op) : allInputs (a ++ b) = allInputs a ++ allInputs b := by
  induction a with
  | nil => rfl
  | cons op a ih => rw [List.cons_append, allInputs_cons, ih, allInputs_cons op a, List.append_assoc]

theorem Inputs.first {Q ra : Nat → Block} {d : Block} {k0 : Nat} {a b : List Op} (h : Inputs Q ra d k0 (allInputs (a ++ b))) : Inputs Q ra d k0 (allInputs a) := by
  intro k hk
  rw [allInputs_append] at h
  rw [h k (by rw [List.length_append]; omega)]
  simp [List.getD_eq_getElem?_getD, List.getElem?_append_left hk]

theorem ands_append (a b : List Op) : ands (a ++ b) = ands a + ands b := by
  induction a with
  | nil => simp [ands]
  | cons op a ih => rw [List.cons_append, ands_cons, ih, ands_cons op a, Nat.add_assoc]

/-- The view of the evaluator when `pre` has been done. -/
def seenPre (E : Env) (ra W vt : Nat → Block) (pre rest : List Op) : OffEva × List Msg × List Msg × List (List Bool) × OnEva × List Msg × List Msg :=
  (stored E ra W vt (pre ++ rest), [], msgs E ra W {} [] pre, outs [] pre,
    { gid := ands pre, gc := (stored E ra W vt (pre ++ rest)).gc, pubValues := (stored E ra W vt (pre ++ rest)).pubValues,
      revealCounter := (masks E ra W {} [] pre).length, wires := (final E ra W {} pre).ws }, [], sent E ra W {} [] pre)

theorem view_pre {E : Env} {P : Block → Block} {Q : Nat → Block} {ra va vt : Nat → Block} {d : Block} {ops₀ pre rest : List Op}
    (hs : List.Forall₂ SameShape ops₀ (pre ++ rest)) (hf : Fits E P ra va vt (setDelta d) {} [] (pre ++ rest))
    (hq : Inputs Q ra (setDelta d) 0 (allInputs (pre ++ rest))) :
    view (withBoth E P Q) d ops₀ pre = some (seenPre E ra (evens va) vt pre rest) := by
  have h0 : Sim E (withBoth E P Q) (start d) {} [] := by
    refine ⟨C16_delta d, rfl, rfl, rfl, rfl, rfl, fun i => ?_⟩
    simp [OffGen.get, Held.get, Circuit.get, start, evaConst, genConst, sel, withBoth]
  obtain ⟨f, r1, r2, r3, r4, -⟩ := sim_run (pre ++ rest) (start d) {} [] h0 hf hq
  obtain ⟨n', e1⟩ := record (f := f) rest pre (start d) (syncOnline f) {} [] h0 (replay_start _ d f r3) r1 hf.first hq.first
  have hst : f.eva = stored E ra (evens va) vt (pre ++ rest) := by
    rw [r4]; simp [stored, start, List.range_eq_range']
  have e2 := eva_run (Q := Q) (masks E ra (evens va) (final E ra (evens va) {} pre) (pre.foldl Circuit.next []) rest) pre (syncOnline f).eva {} [] []
    (2 * ands (pre ++ rest)) rfl rfl rfl (by simp [syncOnline, hst, stored]) (by rw [ands_append]; show 2 * (0 + ands pre) ≤ _; omega)
    (by rw [List.nil_append, ← masks_append]; simp [syncOnline, hst, stored]) rfl hf.first
  rw [← off_shape (withBoth E P Q) (start d) hs] at r1
  simp only [view, r1, e1, e2, seenPre, Option.some.injEq, Prod.mk.injEq, true_and, hst, r2, and_true]
  simp [syncOnline, hst, final_gid]

/-! ### Finding the offset -/

theorem run_same {α : Type} {P P' : Block → Block} (H : Block → Prop) (h : ∀ x, ¬H x → P x = P' x) (t : Ask α) (ht : ∀ x ∈ t.points P', ¬H x) :
    t.run P = t.run P' := by
  induction t with
  | done a => rfl
  | ask x k ih =>
    have hx := h x (ht x List.mem_cons_self)
    simp only [Ask.run, hx]
    exact ih (P' x) fun y hy => ht y (List.mem_cons_of_mem _ hy)

/-- What is computed in the game. -/
noncomputable def inGame (E : Env) (pre rest : List Op) {α : Type} (D : View → Ask α) {N n : Nat} (g : (Block → Block) × (Var N n → Block)) : Ask α :=
  D (some (seenPre E (raOf g.2) (evens (vaOf g.2)) (vtOf g.2) pre rest))

/-- The offset is at a given place of a list that does not depend on it. -/
theorem card_found {N n : Nat} (C : (Block → Block) × (Var N n → Block) → List Block) (m : Nat) :
    Nat.card {g : Space N n // ∃ k ∈ List.range m, (C (g.1, g.2.1))[k]? = some (setDelta g.2.2)} * 2 ^ 128 ≤ 2 * m * Nat.card (Space N n) := by
  have h : Nat.card {g : Space N n // ∃ k ∈ List.range m, (C (g.1, g.2.1))[k]? = some (setDelta g.2.2)} * 2 ^ 128 ≤ (List.range m).length * (2 * Nat.card (Space N n)) := by
    apply card_exists
    intro k _
    rw [← card_block]
    refine resample (fun g => g.2.2) setOff (fun g z => by simp [setOff]) (fun g z => by simp [setOff]) _ 2 fun g => card_offset _ fun y z hy hz => ?_
    simp only [setOff] at hy hz
    exact Option.some.inj (hy.symm.trans hz)
  rw [List.length_range, ← Nat.mul_assoc, Nat.mul_comm m 2] at h
  exact h

/-- The point of another label is asked for, or the offset is found. -/
def AskedFor (E : Env) (pre rest : List Op) (D : View → Ask (List Block)) (q : Nat) {N n : Nat} (g : Space N n) : Prop :=
  ∃ x ∈ pairs q n, ((inGame E pre rest D (g.1, g.2.1)).points (known E (pre ++ rest) (g.1, g.2.1)))[x.1]? = some (ptH E (setDelta g.2.2) (slotOf E (pre ++ rest) g.2.1 x.2))

def Found (E : Env) (pre rest : List Op) (D : View → Ask (List Block)) (m : Nat) {N n : Nat} (g : Space N n) : Prop :=
  ∃ k ∈ List.range m, ((inGame E pre rest D (g.1, g.2.1)).run (known E (pre ++ rest) (g.1, g.2.1)))[k]? = some (setDelta g.2.2)

/-- **C72, the offset.**  The evaluator stops after any part of the program, with everything it has stored, got, output and sent so far and the labels it holds, asks for
`q` more values of the function under the hash and names `m` blocks.  The offset of the garbler is among them for at most the part `(12 A² + 4 A q + 2 m) / 2^128` of all
draws, for `A` AND gates. -/
theorem C72_offset {E : Env} (F : Fair E) (ops₀ pre rest : List Op) (hs : List.Forall₂ SameShape ops₀ (pre ++ rest)) (h63 : ands (pre ++ rest) ≤ 2 ^ 63)
    {N : Nat} (hN : N = (allInputs (pre ++ rest)).length) (D : View → Ask (List Block)) (q m : Nat) (hq : ∀ v P, ((D v).points P).length ≤ q)
    (hm : ∀ v P, ((D v).run P).length ≤ m) :
    Nat.card {r : Draw N // setDelta r.2.2 ∈ (D (view (envOf E r) r.2.2 ops₀ pre)).run r.1} * 2 ^ 128
      ≤ (12 * (ands (pre ++ rest) * ands (pre ++ rest)) + 4 * (q * ands (pre ++ rest)) + 2 * m) * Nat.card (Draw N) := by
  rw [← twice_twice]
  generalize hn : 2 * ands (pre ++ rest) = n
  have c1 := card_coincide F (N := N) hn.symm (by omega)
  have c2 : Nat.card {g : Space N n // AskedFor E pre rest D q g} * 2 ^ 128 ≤ 2 * (q * n) * Nat.card (Space N n) :=
    card_asks F (fun g => (inGame E pre rest D g).points (known E (pre ++ rest) g)) q
  have c3 : Nat.card {g : Space N n // Found E pre rest D m g} * 2 ^ 128 ≤ 2 * m * Nat.card (Space N n) :=
    card_found (fun g => (inGame E pre rest D g).run (known E (pre ++ rest) g)) m
  have c4 : Nat.card {g : Space N n // (Coincide E (pre ++ rest) g ∨ AskedFor E pre rest D q g) ∨ Found E pre rest D m g} * 2 ^ 128
      ≤ (3 * (n * n) + 2 * (q * n) + 2 * m) * Nat.card (Space N n) := by
    refine (Nat.mul_le_mul_right _ ((card_or _ _).trans (Nat.add_le_add_right (card_or _ _) _))).trans ?_
    rw [Nat.add_mul, Nat.add_mul, Nat.add_mul, Nat.add_mul]
    exact Nat.add_le_add (Nat.add_le_add c1 c2) c3
  refine transfer F hn.symm hN (fun g => (Coincide E (pre ++ rest) g ∨ AskedFor E pre rest D q g) ∨ Found E pre rest D m g) _ (fun g h => .inl (.inl h)) ?_ _ c4
  · intro g hg hr
    have hp := pt_injective F fun hc => hg (.inl (.inl hc))
    have hv : view (envOf E (forget N n (toReal E (pre ++ rest) g)).1) (toReal E (pre ++ rest) g).2.2 ops₀ pre = _ :=
      view_pre hs (fits_toReal hn.symm g hp) (inputs_toReal hN g)
    have hnot : ∀ x ∈ (inGame E pre rest D (g.1, g.2.1)).points (known E (pre ++ rest) (g.1, g.2.1)), ¬∃ s : Fin n, pt E (pre ++ rest) g.2.1 g.2.2 (.inr s) = x := by
      rintro x hx ⟨s, hs⟩
      obtain ⟨k, hk, e⟩ := List.mem_iff_getElem.1 hx
      have hkq : k < q := Nat.lt_of_lt_of_le hk (hq _ _)
      refine hg (.inl (.inr ⟨(k, s), mem_pairs.2 ⟨hkq, s.2⟩, ?_⟩))
      show _ = some (pt E (pre ++ rest) g.2.1 g.2.2 (.inr s))
      rw [hs, ← e]; simp
    have hrun := run_same _ (toReal_known hp) _ hnot
    have hr' : setDelta g.2.2 ∈ (inGame E pre rest D (g.1, g.2.1)).run (known E (pre ++ rest) (g.1, g.2.1)) := by
      rw [← hrun]
      have h : setDelta g.2.2 ∈ (D (view (envOf E (forget N n (toReal E (pre ++ rest) g)).1) (toReal E (pre ++ rest) g).2.2 ops₀ pre)).run (toReal E (pre ++ rest) g).1 := hr
      rw [hv] at h
      exact h
    obtain ⟨k, hk, e⟩ := List.mem_iff_getElem.1 hr'
    refine hg (.inr ⟨k, List.mem_range.2 (Nat.lt_of_lt_of_le hk (hm _ _)), ?_⟩)
    rw [← e]; simp

/-! ### Forging an opening -/

/-- The state of the garbler when `pre` has been done. -/
def garblerAt (E : Env) (d : Block) (ops₀ pre : List Op) : Option OnGen :=
  match (start d).run E ops₀ with
  | .error _ => none
  | .ok f =>
    match (syncOnline f).recordEva E pre with
    | .error _ => none
    | .ok (_, n) => some n.gen

/-- The garbler gets these bits and the digest of these blocks at the opening of `ws` and outputs other values than those of the wires. -/
def Forged (E : Env) (d : Block) (ops₀ pre : List Op) (ws : List Nat) (x : List Bool × List Block) : Prop :=
  ∃ g out g' q, garblerAt E d ops₀ pre = some g ∧ g.recv E (.reveal .pub ws) [.bits x.1, .dig (E.hash x.2)] = .ok (some (.pub, out), g', q)
    ∧ out ≠ ws.map (Circuit.get (pre.foldl Circuit.next []))

/-- The digest is also that of other blocks, those the garbler has for the bits. -/
def Collision (E : Env) (d : Block) (ops₀ pre : List Op) (ws : List Nat) (x : List Bool × List Block) : Prop :=
  ∃ g L, garblerAt E d ops₀ pre = some g ∧ L = List.zipWith (fun l b => if b then l ^^^ g.delta else l) (ws.map (g.get E)) x.1 ∧ L ≠ x.2 ∧ E.hash L = E.hash x.2

/-- Both parties when `pre` has been done. -/
theorem parties_pre (E : Env) (d : Block) (ops₀ pre rest : List Op) (hs : List.Forall₂ SameShape ops₀ (pre ++ rest)) :
    ∃ g e, garblerAt E d ops₀ pre = some g ∧ (view E d ops₀ pre).map (fun v => v.2.2.2.2.1) = some e ∧ g.delta = setDelta d
      ∧ ∀ i, e.get E i = g.get E i ^^^ sel (Circuit.get (pre.foldl Circuit.next []) i) (setDelta d) := by
  obtain ⟨f, hf, _, _, hd⟩ := off_run E ops₀ (start d) rfl
  have hf' := hf
  rw [off_shape E _ hs] at hf'
  have key : ∀ (ops : List Op) (m : OffNet) (n : OnNet) (w : List Bool), m.run E (ops ++ rest) = .ok f → m.gen.delta = setDelta d → Replay E f m n w →
      ∃ n' m' l o s, n.recordEva E ops = .ok (l, n') ∧ n.eva.run E (ops.map blindA) l = .ok (o, n'.eva, [], s) ∧ m'.gen.delta = setDelta d
        ∧ Replay E f m' n' (ops.foldl Circuit.next w) := by
    intro ops
    induction ops with
    | nil => intro m n w _ hd r; exact ⟨n, m, [], [], [], rfl, rfl, hd, r⟩
    | cons op ops ih =>
      intro m n w hf hd r
      obtain ⟨a1, a2, -⟩ := off_step E m r.off op
      simp only [List.cons_append, OffNet.run, a1, bind, Except.bind] at hf
      have pf : Prefix (offNext E m op) f := by
        obtain ⟨y, y1, _, y2, _⟩ := off_run E (ops ++ rest) _ a2
        rw [hf] at y1; cases y1; exact y2
      obtain ⟨o, n1, s1, r1, -⟩ := on_step E f m n w op op r (shape_refl op) pf
      obtain ⟨g, s, eb, u, gb, x1, x2, x3, x4⟩ := on_ok s1
      obtain ⟨n', m', l, os, t, i2, i3, i4, i5⟩ := ih _ n1 _ hf ((offNext_delta E m op).trans hd) r1
      have al := alone_frame E n op r.toEva (send_inB x1) x2 l
      rw [r1.toEva, List.nil_append] at al
      refine ⟨n', m', s ++ n.chosen E op ++ l, eb.toList ++ os, u ++ t, ?_, ?_, i4, i5⟩
      · simp only [OnNet.recordEva, bind, Except.bind, x1, x2, x3]
        rw [i2]
      · simp only [List.map_cons, OnEva.run, al, bind, Except.bind, i3]
  obtain ⟨n, m, l, o, s, k1, k2, k3, k4⟩ := key pre (start d) (syncOnline f) [] hf' rfl (replay_start E d f hd)
  refine ⟨n.gen, n.eva, by simp only [garblerAt, hf, k1], by simp only [view, hf, k1, k2, Option.map_some], k4.ndelta.trans k3, fun i => ?_⟩
  rw [k4.rel, onGet k4, k3]

/-- Change the result. -/
def mapAsk {α β : Type} (f : α → β) : Ask α → Ask β
  | .done a => .done (f a)
  | .ask x k => .ask x fun y => mapAsk f (k y)

theorem mapAsk_run {α β : Type} (f : α → β) (P : Block → Block) (t : Ask α) : (mapAsk f t).run P = f (t.run P) := by
  induction t with
  | done a => rfl
  | ask x k ih => exact ih _

theorem mapAsk_points {α β : Type} (f : α → β) (P : Block → Block) (t : Ask α) : (mapAsk f t).points P = t.points P := by
  induction t with
  | done a => rfl
  | ask x k ih => exact congrArg (x :: ·) (ih _)

/-- The sums of the blocks sent and the labels held. -/
def sums (E : Env) (ws : List Nat) (e : OnEva) (L : List Block) : List Block := List.zipWith (fun l i => l ^^^ e.get E i) L ws

theorem genReveal_pub (ls : List Block) (q : List Msg) : onGenReveal .pub ls q = .ok (ls.map fun _ => false, q) := by
  induction ls with
  | nil => rfl
  | cons l ls ih => simp only [onGenReveal, ih, bind, Except.bind, List.map_cons]

/-- Who forges an opening knows the offset. -/
theorem forged_sums {E : Env} {d : Block} {ops₀ pre rest : List Op} (hs : List.Forall₂ SameShape ops₀ (pre ++ rest)) {ws : List Nat} {x : List Bool × List Block}
    (h : Forged E d ops₀ pre ws x) (hc : ¬Collision E d ops₀ pre ws x) : ∃ v, view E d ops₀ pre = some v ∧ setDelta d ∈ sums E ws v.2.2.2.2.1 x.2 := by
  obtain ⟨g, e, h1, h2, h3, h4⟩ := parties_pre E d ops₀ pre rest hs
  obtain ⟨g1, out, g', q, k1, k2, k3⟩ := h
  rw [h1] at k1
  cases k1
  obtain ⟨v, v1, v2⟩ := Option.map_eq_some_iff.1 h2
  refine ⟨v, v1, ?_⟩
  rw [v2]
  simp only [OnGen.recv, bind, Except.bind, if_true] at k2
  rw [genReveal_pub] at k2
  simp only at k2
  split at k2
  · cases k2
  · rename_i y hy
    obtain ⟨out', q'⟩ := y
    simp only [Except.ok.injEq, Prod.mk.injEq, Option.some.injEq, true_and] at k2
    rw [k2.1] at hy
    rcases C19_online E g.delta (ws.map (g.get E)) (ws.map (Circuit.get (pre.foldl Circuit.next []))) (by simp) x.1 x.2 [] out q' hy with c | ⟨L', c1, c2, c3⟩ | ⟨i, y, v, c1, c2, c3⟩
    · exact absurd c k3
    · have hb : out = x.1 := by
        simp only [onPublicCheck, recvBits, recvDig, bind, Except.bind] at hy
        split at hy
        · cases hy
        · split at hy
          · cases hy
          · cases hy; rfl
      rw [hb] at c1
      exact absurd ⟨g, L', h1, c1, c2, c3⟩ hc
    · rw [List.getElem?_map, Option.map_eq_some_iff] at c1 c2
      obtain ⟨j, j1, j2⟩ := c1
      obtain ⟨j', j1', j2'⟩ := c2
      rw [j1] at j1'
      cases j1'
      refine List.mem_of_getElem? (i := i) ?_
      rw [sums, List.getElem?_zipWith, c3, j1]
      simp only [Option.some.injEq, h4, j2, j2', h3]
      cases v
      · rw [show y ^^^ sel (!false) (setDelta d) ^^^ (y ^^^ sel false (setDelta d)) = (y ^^^ setDelta d) ^^^ (y ^^^ 0) from rfl, x0]
        rw [BitVec.xor_comm y, xc']
      · rw [show y ^^^ sel (!true) (setDelta d) ^^^ (y ^^^ sel true (setDelta d)) = (y ^^^ 0) ^^^ (y ^^^ setDelta d) from rfl, x0, xc]

/-- **C72.**  The evaluator is honest up to a PUBLIC opening of `ws`.  There it may send any bits and the digest of any blocks, computed from everything it has seen and
`q` more values of the function under the hash.  The garbler outputs other values than those of the wires for at most the part `(12 A² + 4 A q + 2 |ws|) / 2^128` of all
draws, for `A` AND gates, besides the draws where the digest is that of two different lists. -/
theorem C72_forge {E : Env} (F : Fair E) (ops₀ pre rest : List Op) (ws : List Nat) (hs : List.Forall₂ SameShape ops₀ (pre ++ .reveal .pub ws :: rest))
    (h63 : ands (pre ++ .reveal .pub ws :: rest) ≤ 2 ^ 63) {N : Nat} (hN : N = (allInputs (pre ++ .reveal .pub ws :: rest)).length)
    (D : View → Ask (List Bool × List Block)) (q : Nat) (hq : ∀ v P, ((D v).points P).length ≤ q) :
    Nat.card {r : Draw N // Forged (envOf E r) r.2.2 ops₀ pre ws ((D (view (envOf E r) r.2.2 ops₀ pre)).run r.1)} * 2 ^ 128
      ≤ Nat.card {r : Draw N // Collision (envOf E r) r.2.2 ops₀ pre ws ((D (view (envOf E r) r.2.2 ops₀ pre)).run r.1)} * 2 ^ 128
        + (12 * (ands (pre ++ .reveal .pub ws :: rest) * ands (pre ++ .reveal .pub ws :: rest)) + 4 * (q * ands (pre ++ .reveal .pub ws :: rest)) + 2 * ws.length)
          * Nat.card (Draw N) := by
  have h := C72_offset F ops₀ pre (.reveal .pub ws :: rest) hs h63 hN
    (fun v => mapAsk (fun x => match v with | none => [] | some v => sums E ws v.2.2.2.2.1 x.2) (D v)) q ws.length
    (fun v P => by rw [mapAsk_points]; exact hq v P)
    (fun v P => by
      rw [mapAsk_run]
      cases v with
      | none => exact Nat.zero_le _
      | some v => simp only [sums, List.length_zipWith]; exact Nat.min_le_right _ _)
  refine (Nat.mul_le_mul_right _ ((card_mono fun r hr => ?_).trans (card_or _ _))).trans ((Nat.add_mul _ _ _).le.trans (Nat.add_le_add_left h _))
  refine (Classical.em _).imp_right fun hc => ?_
  obtain ⟨v, v1, v2⟩ := forged_sums hs hr hc
  simp only [mapAsk_run]
  rw [v1] at v2 ⊢
  exact v2

theorem zipWith_labels (E : Env) (g : OnGen) (e : OnEva) (d : Block) (v : Nat → Bool) (hd : g.delta = d) (h : ∀ i, e.get E i = g.get E i ^^^ sel (v i) d) :
    ∀ (ws : List Nat) (b : List Bool), List.zipWith (fun l b => if b then l ^^^ g.delta else l) (ws.map (g.get E)) b = List.zipWith (fun i c => e.get E i ^^^ sel (c != v i) d) ws b
  | [], _ => rfl
  | _ :: _, [] => rfl
  | i :: ws, c :: b => by
    rw [List.map_cons, List.zipWith_cons_cons, List.zipWith_cons_cons, zipWith_labels E g e d v hd h ws b, h, hd]
    congr 1
    cases c <;> cases v i <;> simp [sel, BitVec.xor_assoc]

/-- **C72, acceptance.**  The garbler accepts bits for the wires if and only if the digest is that of the labels held, with the offset added where the bit is wrong.  So
any bits are accepted from an evaluator that knows the offset, and with the right bits only the digest of the honest evaluator. -/
theorem C72_accepts (E : Env) (d : Block) (ops₀ pre rest : List Op) (hs : List.Forall₂ SameShape ops₀ (pre ++ rest)) :
    ∃ g v, garblerAt E d ops₀ pre = some g ∧ view E d ops₀ pre = some v ∧ ∀ (ws : List Nat) (b : List Bool) (h : Nat) (q : List Msg), b.length = ws.length →
      (g.recv E (.reveal .pub ws) (.bits b :: .dig h :: q) = .ok (some (.pub, b), g, q)
        ↔ h = E.hash (List.zipWith (fun i c => v.2.2.2.2.1.get E i ^^^ sel (c != Circuit.get (pre.foldl Circuit.next []) i) (setDelta d)) ws b)) := by
  obtain ⟨g, e, h1, h2, h3, h4⟩ := parties_pre E d ops₀ pre rest hs
  obtain ⟨v, v1, v2⟩ := Option.map_eq_some_iff.1 h2
  refine ⟨g, v, h1, v1, fun ws b h q hl => ?_⟩
  rw [v2, ← zipWith_labels E g e (setDelta d) (Circuit.get (pre.foldl Circuit.next [])) h3 h4]
  simp only [OnGen.recv, genReveal_pub, bind, Except.bind, if_true, onPublicCheck, recvBits, recvDig, List.length_map, hl, ne_eq, not_true_eq_false, if_false]
  by_cases hh : E.hash (List.zipWith (fun l b => if b then l ^^^ g.delta else l) (ws.map (g.get E)) b) = h
  · simp [hh]
  · simp only [hh, not_false_eq_true, if_true, reduceCtorEq, false_iff]
    exact fun e => hh e.symm

/-- All PUBLIC openings of a program: what is before, the wires, what follows. -/
def splits : List Op → List (List Op × List Nat × List Op)
  | [] => []
  | .reveal .pub ws :: ops => ([], ws, ops) :: (splits ops).map fun x => (.reveal .pub ws :: x.1, x.2)
  | op :: ops => (splits ops).map fun x => (op :: x.1, x.2)

theorem mem_splits : ∀ (ops : List Op) (x : List Op × List Nat × List Op), x ∈ splits ops ↔ ops = x.1 ++ .reveal .pub x.2.1 :: x.2.2 := by
  intro ops
  induction ops with
  | nil => intro x; simp [splits]
  | cons op ops ih =>
    rintro ⟨a, ws, b⟩
    have hm : ∀ op', (a, ws, b) ∈ (splits ops).map (fun x => (op' :: x.1, x.2)) ↔ ∃ a', a = op' :: a' ∧ ops = a' ++ .reveal .pub ws :: b := by
      intro op'
      simp only [List.mem_map, ih, Prod.mk.injEq]
      constructor
      · rintro ⟨⟨a', ws', b'⟩, e, rfl, h⟩
        simp only [Prod.mk.injEq] at h
        obtain ⟨rfl, rfl⟩ := h
        exact ⟨a', rfl, e⟩
      · rintro ⟨a', rfl, e⟩
        exact ⟨(a', ws, b), e, rfl, rfl⟩
    have hcons : op :: ops = a ++ .reveal .pub ws :: b ↔ (a = [] ∧ op = .reveal .pub ws ∧ ops = b) ∨ ∃ a', a = op :: a' ∧ ops = a' ++ .reveal .pub ws :: b := by
      cases a with
      | nil => simp
      | cons c a => simp [eq_comm (a := op)]
    rw [hcons, ← hm op]
    cases op with
    | reveal p vs =>
      cases p with
      | pub => simp only [splits, List.mem_cons, Prod.mk.injEq, Op.reveal.injEq, true_and, eq_comm (a := ws), eq_comm (a := b)]
      | _ => simp [splits]
    | _ => simp [splits]

/-- **C72, a whole run.**  The evaluator chooses at each opening what to send, honest up to there.  It gets wrong values accepted at one of the `K` PUBLIC openings of at most
`m` wires for at most the part `K (12 A² + 4 A q + 2 m) / 2^128` of all draws, besides those where a digest is that of two different lists. -/
theorem C72_run {E : Env} (F : Fair E) (ops₀ ops : List Op) (hs : List.Forall₂ SameShape ops₀ ops) (h63 : ands ops ≤ 2 ^ 63) {N : Nat} (hN : N = (allInputs ops).length)
    (m : Nat) (hm : ∀ x ∈ splits ops, x.2.1.length ≤ m) (D : List Op → View → Ask (List Bool × List Block)) (q : Nat) (hq : ∀ p v P, ((D p v).points P).length ≤ q) :
    Nat.card {r : Draw N // ∃ x ∈ splits ops, Forged (envOf E r) r.2.2 ops₀ x.1 x.2.1 ((D x.1 (view (envOf E r) r.2.2 ops₀ x.1)).run r.1)
        ∧ ¬Collision (envOf E r) r.2.2 ops₀ x.1 x.2.1 ((D x.1 (view (envOf E r) r.2.2 ops₀ x.1)).run r.1)} * 2 ^ 128
      ≤ (splits ops).length * (12 * (ands ops * ands ops) + 4 * (q * ands ops) + 2 * m) * Nat.card (Draw N) := by
  rw [Nat.mul_assoc]
  apply card_exists
  rintro ⟨pre, ws, rest⟩ hx
  have hw := hm _ hx
  have he := (mem_splits ops _).1 hx
  simp only at he hw
  have h := C72_offset F ops₀ pre (.reveal .pub ws :: rest) (by rw [← he]; exact hs) (by rw [← he]; exact h63) (N := N) (by rw [← he]; exact hN)
    (fun v => mapAsk (fun x => match v with | none => [] | some v => sums E ws v.2.2.2.2.1 x.2) (D pre v)) q m
    (fun v P => by rw [mapAsk_points]; exact hq pre v P)
    (fun v P => by
      rw [mapAsk_run]
      cases v with
      | none => exact Nat.zero_le _
      | some v => simp only [sums, List.length_zipWith]; exact (Nat.min_le_right _ _).trans hw)
  rw [← he] at h
  refine (Nat.mul_le_mul_right _ (card_mono fun r hr => ?_)).trans h
  obtain ⟨v, v1, v2⟩ := forged_sums (rest := .reveal .pub ws :: rest) (by rw [← he]; exact hs) hr.1 hr.2
  simp only [mapAsk_run]
  rw [v1] at v2 ⊢
  exact v2

/-! ### A case -/

def casePre (a b : Bool) : List Op := [.inA a, .inB b, .and 0 1]

def caseOff : List Op := casePre false false ++ [.reveal .pub [2]]

/-- The evaluator sends the opposite bit and the digest of the label it holds and a guess that needs one value of the function: at most the part 18 / 2^128 of all draws. -/
example (a b : Bool) (guess : View → Ask Block) (hg : ∀ v P, ((guess v).points P).length ≤ 1) :
    Nat.card {r : Draw 2 // Forged (envOf caseEnv r) r.2.2 caseOff (casePre a b) [2]
        ((mapAsk (fun x => ([!(a && b)], [x])) (guess (view (envOf caseEnv r) r.2.2 caseOff (casePre a b)))).run r.1)} * 2 ^ 128
      ≤ Nat.card {r : Draw 2 // Collision (envOf caseEnv r) r.2.2 caseOff (casePre a b) [2]
        ((mapAsk (fun x => ([!(a && b)], [x])) (guess (view (envOf caseEnv r) r.2.2 caseOff (casePre a b)))).run r.1)} * 2 ^ 128
        + 18 * Nat.card (Draw 2) :=
  C72_forge case_fair caseOff (casePre a b) [] [2]
    (.cons trivial (.cons trivial (.cons rfl (.cons rfl .nil)))) (by rw [show ands (casePre a b ++ [.reveal .pub [2]]) = 1 from rfl]; omega) (N := 2) rfl
    (fun v => mapAsk (fun x => ([!(a && b)], [x])) (guess v)) 1 fun v P => by rw [mapAsk_points]; exact hg v P

example : splits [.inA true, .reveal .pub [0], .reveal .bob [0], .reveal .pub [0, 0]]
    = [([.inA true], [0], [.reveal .bob [0], .reveal .pub [0, 0]]), ([.inA true, .reveal .pub [0], .reveal .bob [0]], [0, 0], [])] := rfl

end Verif.Props.EvaluatorBound
