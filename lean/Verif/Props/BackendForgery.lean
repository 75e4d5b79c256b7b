import Verif.Props.BackendAdvantage
import Verif.Props.OpeningForgery

/-!
How often a forged opening is accepted in the ordinary backend (C72).  As in `OpeningForgery`, with everything the evaluator has got up to the opening; here a run may also
go wrong because labels coincide, and the bits of wires that are constants for both parties are not authenticated (C19).
-/

namespace Verif.Props.BackendBound
open Verif.Model Verif.Model.GC Verif.Lemmas Verif.Lemmas.Sampling
open Verif.Spec.Circuit (Party Op)
open Verif.Spec
open Verif.Props (NoCoincidence NetInv RevealOk C16_delta pub_isPublic net_run C19_opt_partial)
open Verif.Props.Direct (start start_inv run_inv)
open Verif.Props.EvaluatorView
open Verif.Props.EvaluatorBound (x0 xc xc' pairs mem_pairs length_pairs points_same run_same card_offset ands mapAsk mapAsk_run mapAsk_points splits mem_splits)

/-! ### The first part of a program -/

theorem Static.run_append (b : List Op) : ∀ (a : List Op) (S : Static), S.run (a ++ b) = (S.run a).run b
  | [], _ => rfl
  | _ :: a, S => Static.run_append b a (S.next _)

theorem slots_append (b : List Op) : ∀ (a : List Op) (S : Static), slots S (a ++ b) = slots S a ++ slots (S.run a) b
  | [], _ => rfl
  | op :: a, S => by simp only [List.cons_append, slots, slots_append b a, List.append_assoc, Static.run]

theorem Fits.first {E : Env} {P : Block → Block} {Q K : Nat → Block} {V : Vals} {d : Block} {b : List Op} : ∀ {a : List Op} {S : Static} {w : List Bool},
    Fits E P Q K V d S w (a ++ b) → Fits E P Q K V d S w a
  | [], _, _, _ => trivial
  | _ :: a, _, _, h => ⟨h.1, Fits.first (a := a) h.2⟩

theorem apart_first {E : Env} {b : List Op} : ∀ {a : List Op} {n : Net}, AllApart E n (a ++ b) → AllApart E n a
  | [], _, _ => trivial
  | _ :: a, _, h => ⟨h.1, fun o n' e => apart_first (a := a) (h.2 o n' e)⟩

/-- The view of the evaluator in the game when `pre` has been done. -/
noncomputable def seenPre (E : Env) (pre rest : List Op) {NA NB n : Nat} (g : (Block → Block) × (Var NA NB n → Block)) : View :=
  match Eva.run (withAll E (known E (pre ++ rest) g) (valsOf g.2).ra (valsOf g.2).rb) (valsOf g.2).rb E.cotR {} (pre.map blindA) (msgs E (valsOf g.2) {} [] pre) with
  | .error _ => none
  | .ok out => some (msgs E (valsOf g.2) {} [] pre, out)

theorem view_pre {E : Env} (F : Fair E) {pre rest : List Op} {NA NB n : Nat} (Z : Sized (pre ++ rest) NA NB n) {g : Space NA NB n} (h : ¬Clash E (pre ++ rest) g) :
    view (envOf E (toReal E (pre ++ rest) g).1) g.2.2 pre = seenPre E pre rest (g.1, g.2.1) := by
  have hp := pt_injective F h
  have hP : ∀ x ∈ slots {} pre, known E (pre ++ rest) (g.1, g.2.1) (ptA E (valsOf g.2.1) x) = (toReal E (pre ++ rest) g).1.1 (ptA E (valsOf g.2.1) x) := by
    intro x hx
    refine (known_same hp ?_).symm
    rintro ⟨s, hs⟩
    have hx : x ∈ slots {} (pre ++ rest) := by rw [slots_append]; exact List.mem_append_left _ hx
    rw [slots_eq Z.n, List.mem_map] at hx
    obtain ⟨i, h1, rfl⟩ := hx
    rw [List.mem_range] at h1
    have := @hp (.inr s) (.inl ⟨i, h1⟩) hs
    cases this
  have hc : Calm E (valsOf g.2.1) (setDelta g.2.2) (Static.run {} pre) := fun m hm => calm_toReal h m (by
    rw [wiring, Static.run_append]; exact run_mem rest hm)
  obtain ⟨-, -, -, m, out, r4, -, r6, r7⟩ := sim_run pre (start g.2.2) {} [] (start_sim E _ _) hc (fits_toReal Z g hp).first hP
  have r4' : (start g.2.2).recordEva (envOf E (toReal E (pre ++ rest) g).1) pre = .ok (msgs E (valsOf g.2.1) {} [] pre, m) := r4
  have r6' : (start g.2.2).eva.run (envOf E (toReal E (pre ++ rest) g).1) (cotM (envOf E (toReal E (pre ++ rest) g).1) (setDelta g.2.2)) (envOf E (toReal E (pre ++ rest) g).1).cotR
    (pre.map blindA) (msgs E (valsOf g.2.1) {} [] pre) = .ok out := r6
  simp only [view, seenPre, r4', r6']
  rw [show Eva.run _ _ _ {} (pre.map blindA) (msgs E (valsOf g.2.1) {} [] pre) = .ok out from r7]

theorem good_toReal {E : Env} (F : Fair E) {ops : List Op} {NA NB n : Nat} (Z : Sized ops NA NB n) {g : Space NA NB n} (h : ¬Clash E ops g) :
    Good (envOf E (toReal E ops g).1) (toReal E ops g).1.2.2 ops := by
  refine (safe_toReal F Z (D := fun _ => .done false) (q := 0) (fun _ _ => Nat.le_refl 0) ?_).1
  rintro (hc | ⟨x, hx, -⟩)
  · exact h hc
  · exact absurd (mem_pairs.1 hx).1 (Nat.not_lt_zero _)

/-! ### Finding the offset -/

/-- What is computed in the game. -/
noncomputable def inGame (E : Env) (pre rest : List Op) {α : Type} (D : View → Ask α) {NA NB n : Nat} (g : (Block → Block) × (Var NA NB n → Block)) : Ask α :=
  D (seenPre E pre rest g)

/-- The point of another label is asked for. -/
def AskedFor (E : Env) (pre rest : List Op) (D : View → Ask (List Block)) (q : Nat) {NA NB n : Nat} (g : Space NA NB n) : Prop :=
  ∃ x ∈ pairs q n, ((inGame E pre rest D (g.1, g.2.1)).points (known E (pre ++ rest) (g.1, g.2.1)))[x.1]? = some (ptH E (valsOf g.2.1) (setDelta g.2.2) (slot (pre ++ rest) x.2))

/-- The offset is found. -/
def Found (E : Env) (pre rest : List Op) (D : View → Ask (List Block)) (m : Nat) {NA NB n : Nat} (g : Space NA NB n) : Prop :=
  ∃ k ∈ List.range m, ((inGame E pre rest D (g.1, g.2.1)).run (known E (pre ++ rest) (g.1, g.2.1)))[k]? = some (setDelta g.2.2)

theorem card_found {NA NB n : Nat} (C : (Block → Block) × (Var NA NB n → Block) → List Block) (m : Nat) :
    Nat.card {g : Space NA NB n // ∃ k ∈ List.range m, (C (g.1, g.2.1))[k]? = some (setDelta g.2.2)} * 2 ^ 128 ≤ 2 * m * Nat.card (Space NA NB n) := by
  have h : Nat.card {g : Space NA NB n // ∃ k ∈ List.range m, (C (g.1, g.2.1))[k]? = some (setDelta g.2.2)} * 2 ^ 128
      ≤ (List.range m).length * (2 * Nat.card (Space NA NB n)) := by
    apply card_exists
    intro k _
    rw [← card_block]
    refine resample (fun g => g.2.2) setOff (fun g z => by simp [setOff]) (fun g z => by simp [setOff]) _ 2 fun g => card_offset _ fun y z hy hz => ?_
    simp only [setOff] at hy hz
    exact Option.some.inj (hy.symm.trans hz)
  rw [List.length_range, ← Nat.mul_assoc, Nat.mul_comm m 2] at h
  exact h

/-- **C72, the offset in the ordinary backend.**  The evaluator stops after any part of the program, with everything it has got, output and sent so far and the labels it
holds, asks for `q` more values of the function under the hash and names `m` blocks.  The offset of the garbler is among them, or labels or points coincide, for at most the
part `(4 W + 12 A² + 4 A q + 2 m) / 2^128` of all draws, for `A` AND gates and `W` wires. -/
theorem C72_ordinary_offset {E : Env} (F : Fair E) (pre rest : List Op) (h63 : ands (pre ++ rest) ≤ 2 ^ 63) {NA NB : Nat} (hA : inputsA (pre ++ rest) = NA)
    (hB : inputsB (pre ++ rest) = NB) (D : View → Ask (List Block)) (q m : Nat) (hq : ∀ v P, ((D v).points P).length ≤ q) (hm : ∀ v P, ((D v).run P).length ≤ m) :
    Nat.card {r : Draw NA NB // ¬Good (envOf E r) r.2.2 (pre ++ rest) ∨ setDelta r.2.2 ∈ (D (view (envOf E r) r.2.2 pre)).run r.1} * 2 ^ 128
      ≤ (4 * wires (pre ++ rest) + 12 * (ands (pre ++ rest) * ands (pre ++ rest)) + 4 * (q * ands (pre ++ rest)) + 2 * m) * Nat.card (Draw NA NB) := by
  obtain ⟨Z, c⟩ := sized (pre ++ rest) hA hB
  generalize hn : 2 * (wiring (pre ++ rest)).gid = n at Z
  have c1 := card_clash F Z (by omega)
  have c2 : Nat.card {g : Space NA NB n // AskedFor E pre rest D q g} * 2 ^ 128 ≤ q * n * 2 * Nat.card (Space NA NB n) :=
    card_asks F (fun g => (inGame E pre rest D g).points (known E (pre ++ rest) g)) q
  have c3 : Nat.card {g : Space NA NB n // Found E pre rest D m g} * 2 ^ 128 ≤ 2 * m * Nat.card (Space NA NB n) :=
    card_found (fun g => (inGame E pre rest D g).run (known E (pre ++ rest) g)) m
  have c4 : Nat.card {g : Space NA NB n // (Clash E (pre ++ rest) g ∨ AskedFor E pre rest D q g) ∨ Found E pre rest D m g} * 2 ^ 128
      ≤ ((secrets (pre ++ rest)).length * 4 + n * n * 3 + q * n * 2 + 2 * m) * Nat.card (Space NA NB n) := card_two (card_two c1 c2) c3
  have hb := bound_counts (pre ++ rest) q
  rw [hn] at hb
  refine (transfer F Z (fun g => (Clash E (pre ++ rest) g ∨ AskedFor E pre rest D q g) ∨ Found E pre rest D m g) _ (fun g h => .inl (.inl h)) ?_ _ c4).trans
    (Nat.mul_le_mul_right _ (Nat.add_le_add_right hb _))
  rintro g hg hr
  have hc : ¬Clash E (pre ++ rest) g := fun hc => hg (.inl (.inl hc))
  rcases hr with hr | hr
  · exact hr (good_toReal F Z hc)
  have hp := pt_injective F hc
  have hnot : ∀ x ∈ (inGame E pre rest D (g.1, g.2.1)).points (known E (pre ++ rest) (g.1, g.2.1)), ¬∃ s : Fin n, pt E (pre ++ rest) g.2.1 g.2.2 (.inr s) = x := by
    rintro x hx ⟨s, hs⟩
    obtain ⟨k, hk, e⟩ := List.mem_iff_getElem.1 hx
    have hkq : k < q := Nat.lt_of_lt_of_le hk (hq _ _)
    refine hg (.inl (.inr ⟨(k, s), mem_pairs.2 ⟨hkq, s.2⟩, ?_⟩))
    show _ = some (pt E (pre ++ rest) g.2.1 g.2.2 (.inr s))
    rw [hs, ← e]; simp
  have hrun := run_same _ (fun x hx => known_same hp hx) _ hnot
  have hr' : setDelta g.2.2 ∈ (inGame E pre rest D (g.1, g.2.1)).run (known E (pre ++ rest) (g.1, g.2.1)) := by
    rw [← hrun]
    have h : setDelta g.2.2 ∈ (D (view (envOf E (toReal E (pre ++ rest) g).1) g.2.2 pre)).run (toReal E (pre ++ rest) g).1.1 := hr
    rw [view_pre F Z hc] at h
    exact h
  obtain ⟨k, hk, e⟩ := List.mem_iff_getElem.1 hr'
  refine hg (.inr ⟨k, List.mem_range.2 (Nat.lt_of_lt_of_le hk (hm _ _)), ?_⟩)
  rw [← e]; simp

/-! ### Forging an opening -/

/-- The state of the garbler when `pre` has been done. -/
def garblerAt (E : Env) (d : Block) (pre : List Op) : Option Gen :=
  match (start d).recordEva E pre with
  | .error _ => none
  | .ok (_, n) => some n.gen

/-- The garbler gets these bits and the digest of these blocks at the opening of `ws` and outputs for a wire that is no constant another value than that of the wire. -/
def Forged (E : Env) (d : Block) (pre : List Op) (ws : List Nat) (x : List Bool × List Block) : Prop :=
  ∃ g out g' q, garblerAt E d pre = some g ∧ g.recv E (.reveal .pub ws) [.bits x.1, .dig (E.hash x.2)] = .ok (some (.pub, out), g', q)
    ∧ ∃ (k i : Nat), ws[k]? = some i ∧ isPublic (g.get i) = false ∧ out[k]? ≠ some (Circuit.get (pre.foldl Circuit.next []) i)

/-- The digest is also that of other blocks, those the garbler has for the bits. -/
def Collision (E : Env) (d : Block) (pre : List Op) (ws : List Nat) (x : List Bool × List Block) : Prop :=
  ∃ g L, garblerAt E d pre = some g ∧ L = genOpenBlocks g.delta (ws.map g.get) x.1 ∧ L ≠ x.2 ∧ E.hash L = E.hash x.2

theorem apart_inv {E : Env} : ∀ (ops : List Op) (n : Net) (w : List Bool), Inv n w → AllApart E n ops →
    ∃ os n', n.run E ops = .ok (os, n') ∧ Inv n' (ops.foldl Circuit.next w) ∧ n'.gen.delta = n.gen.delta
  | [], n, _, h, _ => ⟨[], n, rfl, h, rfl⟩
  | op :: ops, n, w, h, ha => by
    obtain ⟨o, n1, e1, i1, d1⟩ := inv_step h ha.1
    obtain ⟨os, n2, e2, i2, d2⟩ := apart_inv ops n1 _ i1 (ha.2 o n1 e1)
    exact ⟨o.toList ++ os, n2, by simp only [Net.run, e1, e2, bind, Except.bind], i2, d2.trans d1⟩

/-- Both parties when `pre` has been done. -/
theorem parties_pre (E : Env) (d : Block) (pre rest : List Op) (hg : Good E d (pre ++ rest)) :
    ∃ g e, garblerAt E d pre = some g ∧ (view E d pre).map (fun v => v.2.2.1) = some e ∧ g.delta = setDelta d
      ∧ ∀ i, WRel (setDelta d) (g.get i) (e.get i) (Circuit.get (pre.foldl Circuit.next []) i) := by
  obtain ⟨os, n, h1, h3, hd⟩ := apart_inv pre (start d) [] (start_clear d) (apart_first hg.1)
  obtain ⟨l, s, h4, h5⟩ := C62_parties E pre _ _ _ h1
  have hd : n.gen.delta = setDelta d := hd
  refine ⟨n.gen, n.eva, by simp only [garblerAt, h4], ?_, hd, fun i => by rw [← hd]; exact h3.rel i⟩
  have h5' : (start d).eva.run E (cotM E (setDelta d)) E.cotR (pre.map blindA) l = .ok (theirs os, n.eva, n.toEva, s) := h5
  simp only [view, h4, h5', Option.map_some]

/-- The sums of the blocks sent and the labels held. -/
def sums (ws : List Nat) (e : Eva) (L : List Block) : List Block := List.zipWith (fun l i => l ^^^ e.get i) L ws

theorem revealLoop_pub : ∀ (ls : List Block) (q : List Msg), ∃ b, genRevealLoop .pub ls q = .ok (b, q)
  | [], q => ⟨[], rfl⟩
  | l :: ls, q => by
    obtain ⟨b, h⟩ := revealLoop_pub ls q
    simp only [genRevealLoop, h, bind, Except.bind]
    by_cases h1 : isOne l = true
    · exact ⟨_, by rw [if_pos h1]⟩
    · by_cases h2 : isZero l = true
      · exact ⟨_, by rw [if_neg h1, if_pos h2]⟩
      · exact ⟨_, by rw [if_neg h1, if_neg h2]; rfl⟩

/-- What the garbler does at a PUBLIC opening. -/
theorem recv_pub (E : Env) (g : Gen) (ws : List Nat) (q : List Msg) :
    g.recv E (.reveal .pub ws) q = (genPublicCheck E g.delta (ws.map g.get) q).map fun x => (some (.pub, x.1), g, x.2) := by
  obtain ⟨b, h⟩ := revealLoop_pub (ws.map g.get) q
  simp only [Gen.recv, h, bind, Except.bind, if_true, Except.map]

/-- Who forges an opening knows the offset. -/
theorem forged_sums {E : Env} {d : Block} {pre rest : List Op} (hg : Good E d (pre ++ rest)) {ws : List Nat} {x : List Bool × List Block}
    (h : Forged E d pre ws x) (hc : ¬Collision E d pre ws x) : ∃ v, view E d pre = some v ∧ setDelta d ∈ sums ws v.2.2.1 x.2 := by
  obtain ⟨g, e, h1, h2, h3, h4⟩ := parties_pre E d pre rest hg
  obtain ⟨g1, out, g', q, k1, k2, k, i, k3, k4, k5⟩ := h
  rw [h1] at k1
  cases k1
  obtain ⟨v, v1, v2⟩ := Option.map_eq_some_iff.1 h2
  refine ⟨v, v1, ?_⟩
  rw [v2]
  rw [recv_pub] at k2
  cases hy : genPublicCheck E g.delta (ws.map g.get) [.bits x.1, .dig (E.hash x.2)] with
  | error y => rw [hy] at k2; cases k2
  | ok y =>
    rw [hy] at k2
    obtain ⟨out', q'⟩ := y
    simp only [Except.map, Except.ok.injEq, Prod.mk.injEq, Option.some.injEq, true_and] at k2
    rw [k2.1] at hy
    rcases C19_opt_partial E g.delta (ws.map g.get) (ws.map (Circuit.get (pre.foldl Circuit.next []))) (by simp) x.1 x.2 [] out q' hy with ⟨-, c⟩ | ⟨L', c1, c2, c3⟩ | ⟨j, y, u, c1, c0, c2, c3⟩
    · exact absurd ((c k (g.get i) (by rw [List.getElem?_map, k3]; rfl) k4).trans (by rw [List.getElem?_map, k3]; rfl)) k5
    · have hb : out = x.1 := by
        simp only [genPublicCheck, recvBits, recvDig, bind, Except.bind] at hy
        split at hy
        · cases hy
        · split at hy
          · cases hy
          · cases hy; rfl
      rw [hb] at c1
      exact absurd ⟨g, L', h1, c1, c2, c3⟩ hc
    · rw [List.getElem?_map, Option.map_eq_some_iff] at c1 c2
      obtain ⟨a, j1, j2⟩ := c1
      obtain ⟨b, j1', j2'⟩ := c2
      rw [j1] at j1'
      cases j1'
      have hr := h4 a
      rw [j2, j2'] at hr
      have he : e.get a = y ^^^ sel u (setDelta d) := by
        rcases hr with ⟨r, -⟩ | ⟨-, -, r⟩
        · rw [r, pub_isPublic] at c0; cases c0
        · exact r
      refine List.mem_of_getElem? (i := j) ?_
      rw [sums, List.getElem?_zipWith, c3, j1]
      simp only [Option.some.injEq, he, h3]
      cases u
      · rw [show y ^^^ sel (!false) (setDelta d) ^^^ (y ^^^ sel false (setDelta d)) = (y ^^^ setDelta d) ^^^ (y ^^^ 0) from rfl, x0]
        rw [BitVec.xor_comm y, xc']
      · rw [show y ^^^ sel (!true) (setDelta d) ^^^ (y ^^^ sel true (setDelta d)) = (y ^^^ 0) ^^^ (y ^^^ setDelta d) from rfl, x0, xc]

/-- **C72, the ordinary backend.**  The evaluator is honest up to a PUBLIC opening of `ws`.  There it may send any bits and the digest of any blocks, computed from everything
it has seen and `q` more values of the function under the hash.  The garbler outputs another value than that of the wire, for a wire that is no constant, for at most the part
`(4 W + 12 A² + 4 A q + 2 |ws|) / 2^128` of all draws, besides the draws where the digest is that of two different lists.  Bits of constants can be forged, see
`C19_constant_wires_unauthenticated`. -/
theorem C72_ordinary_forge {E : Env} (F : Fair E) (pre rest : List Op) (ws : List Nat) (h63 : ands (pre ++ .reveal .pub ws :: rest) ≤ 2 ^ 63) {NA NB : Nat}
    (hA : inputsA (pre ++ .reveal .pub ws :: rest) = NA) (hB : inputsB (pre ++ .reveal .pub ws :: rest) = NB) (m : Nat) (hm : ws.length ≤ m)
    (D : View → Ask (List Bool × List Block)) (q : Nat) (hq : ∀ v P, ((D v).points P).length ≤ q) :
    Nat.card {r : Draw NA NB // Forged (envOf E r) r.2.2 pre ws ((D (view (envOf E r) r.2.2 pre)).run r.1)
        ∧ ¬Collision (envOf E r) r.2.2 pre ws ((D (view (envOf E r) r.2.2 pre)).run r.1)} * 2 ^ 128
      ≤ (4 * wires (pre ++ .reveal .pub ws :: rest) + 12 * (ands (pre ++ .reveal .pub ws :: rest) * ands (pre ++ .reveal .pub ws :: rest))
          + 4 * (q * ands (pre ++ .reveal .pub ws :: rest)) + 2 * m) * Nat.card (Draw NA NB) := by
  have h := C72_ordinary_offset F pre (.reveal .pub ws :: rest) h63 hA hB
    (fun v => mapAsk (fun x => match v with | none => [] | some v => sums ws v.2.2.1 x.2) (D v)) q m
    (fun v P => by rw [mapAsk_points]; exact hq v P)
    (fun v P => by
      rw [mapAsk_run]
      cases v with
      | none => exact Nat.zero_le _
      | some v => simp only [sums, List.length_zipWith]; exact (Nat.min_le_right _ _).trans hm)
  refine (Nat.mul_le_mul_right _ (card_mono fun r hr => ?_)).trans h
  by_cases hg : Good (envOf E r) r.2.2 (pre ++ .reveal .pub ws :: rest)
  · refine .inr ?_
    obtain ⟨v, v1, v2⟩ := forged_sums hg hr.1 hr.2
    simp only [mapAsk_run]
    rw [v1] at v2 ⊢
    exact v2
  · exact .inl hg

/-- **C72, a whole run of the ordinary backend.**  The evaluator chooses at each opening what to send, honest up to there. -/
theorem C72_ordinary_run {E : Env} (F : Fair E) (ops : List Op) (h63 : ands ops ≤ 2 ^ 63) {NA NB : Nat} (hA : inputsA ops = NA) (hB : inputsB ops = NB)
    (m : Nat) (hm : ∀ x ∈ splits ops, x.2.1.length ≤ m) (D : List Op → View → Ask (List Bool × List Block)) (q : Nat) (hq : ∀ p v P, ((D p v).points P).length ≤ q) :
    Nat.card {r : Draw NA NB // ∃ x ∈ splits ops, Forged (envOf E r) r.2.2 x.1 x.2.1 ((D x.1 (view (envOf E r) r.2.2 x.1)).run r.1)
        ∧ ¬Collision (envOf E r) r.2.2 x.1 x.2.1 ((D x.1 (view (envOf E r) r.2.2 x.1)).run r.1)} * 2 ^ 128
      ≤ (splits ops).length * (4 * wires ops + 12 * (ands ops * ands ops) + 4 * (q * ands ops) + 2 * m) * Nat.card (Draw NA NB) := by
  rw [Nat.mul_assoc]
  apply card_exists
  rintro ⟨pre, ws, rest⟩ hx
  have hw := hm _ hx
  have he := (mem_splits ops _).1 hx
  simp only at he hw
  have h := C72_ordinary_forge (NA := NA) (NB := NB) F pre rest ws (by rw [← he]; exact h63) (by rw [← he]; exact hA) (by rw [← he]; exact hB) m hw (D pre) q (hq pre)
  rw [← he] at h
  exact h

/-! ### A case -/

def casePre (a b : Bool) : List Op := [.inA a, .inB b, .and 0 1]

/-- The evaluator sends the opposite bit and the digest of a guess that needs one value of the function: at most the part 30 / 2^128 of all draws. -/
example (a b : Bool) (guess : View → Ask Block) (hg : ∀ v P, ((guess v).points P).length ≤ 1) :
    Nat.card {r : Draw 1 1 // Forged (envOf caseEnv r) r.2.2 (casePre a b) [2] ((mapAsk (fun x => ([!(a && b)], [x])) (guess (view (envOf caseEnv r) r.2.2 (casePre a b)))).run r.1)
        ∧ ¬Collision (envOf caseEnv r) r.2.2 (casePre a b) [2] ((mapAsk (fun x => ([!(a && b)], [x])) (guess (view (envOf caseEnv r) r.2.2 (casePre a b)))).run r.1)} * 2 ^ 128
      ≤ 30 * Nat.card (Draw 1 1) :=
  C72_ordinary_forge case_fair (casePre a b) [] [2] (by rw [show ands (casePre a b ++ [.reveal .pub [2]]) = 1 from rfl]; omega) (NA := 1) (NB := 1) rfl rfl 1
    (Nat.le_refl 1) (fun v => mapAsk (fun x => ([!(a && b)], [x])) (guess v)) 1 fun v P => by rw [mapAsk_points]; exact hg v P

end Verif.Props.BackendBound
