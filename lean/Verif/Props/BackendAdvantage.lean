import Verif.Props.BackendBound

/-!
C69: how often the ordinary backend goes wrong, and how well its evaluator can tell two inputs of the garbler apart, when function under the hash, labels, blocks of the
correlated OTs and offset are drawn uniformly.
-/

namespace Verif.Props.BackendBound
open Verif.Model Verif.Model.GC Verif.Lemmas Verif.Lemmas.Sampling
open Verif.Spec.Circuit (Party Op)
open Verif.Spec
open Verif.Props (NoCoincidence RevealOk C16_delta pub_isPublic net_run)
open Verif.Props.Direct (start start_inv)
open Verif.Props.EvaluatorView
open Verif.Props.EvaluatorBound (x0 xc xc' pairs mem_pairs length_pairs points_same ands swap swap_lin swap_inj)

/-- Number of bits ALICE feeds. -/
def inputsA : List Op → Nat
  | [] => 0
  | .inA _ :: ops => inputsA ops + 1
  | _ :: ops => inputsA ops

/-- Number of bits BOB feeds. -/
def inputsB : List Op → Nat
  | [] => 0
  | .inB _ :: ops => inputsB ops + 1
  | _ :: ops => inputsB ops

/-- Number of wires: inputs, constants and gates of all kinds. -/
def wires : List Op → Nat
  | [] => 0
  | .reveal _ _ :: ops => wires ops
  | _ :: ops => wires ops + 1

theorem run_counts : ∀ (ops : List Op) (S : Static), (S.run ops).ka = S.ka + inputsA ops ∧ (S.run ops).kb = S.kb + inputsB ops
    ∧ (S.run ops).gid ≤ S.gid + ands ops ∧ (S.run ops).ws.length = S.ws.length + wires ops
  | [], S => ⟨rfl, rfl, Nat.le_refl _, rfl⟩
  | op :: ops, S => by
    obtain ⟨h1, h2, h3, h4⟩ := run_counts ops (S.next op)
    rw [Static.run]
    cases op with
    | and i j =>
      simp only [Static.next] at h1 h2 h3 h4
      have k : (S.and (S.get i) (S.get j)).ka = S.ka ∧ (S.and (S.get i) (S.get j)).kb = S.kb ∧ (S.and (S.get i) (S.get j)).gid ≤ S.gid + 1
          ∧ (S.and (S.get i) (S.get j)).ws.length = S.ws.length + 1 := by
        cases S.get i <;> cases S.get j <;> simp [Static.and, Static.push]
      obtain ⟨k1, k2, k3, k4⟩ := k
      simp only [inputsA, inputsB, ands, wires, Static.next]
      omega
    | _ =>
      simp only [Static.next, Static.push, List.length_append, List.length_cons, List.length_nil] at h1 h2 h3 h4
      simp only [inputsA, inputsB, ands, wires, Static.next, Static.push]
      omega

theorem secrets_length (ops : List Op) : (secrets ops).length ≤ wires ops := by
  have := (run_counts ops {}).2.2.2
  simp only [List.length_nil, Nat.zero_add] at this
  rw [← this]
  exact List.length_filterMap_le _ _

/-- No coincidence, and no question for a point of another label. -/
def Safe (E : Env) (ops : List Op) (D : View → Ask Bool) (E' : Env) (d : Block) : Prop :=
  Good E' d ops ∧ ∀ x ∈ (D (view E' d ops)).points E'.perm, ∀ L t, E.sigma L ^^^ t ∈ asked E' (start d) ops → x ≠ E.sigma (L ^^^ setDelta d) ^^^ t

theorem safe_toReal {E : Env} (F : Fair E) {ops : List Op} {NA NB n : Nat} (Z : Sized ops NA NB n) {D : View → Ask Bool} {q : Nat}
    (hq : ∀ v P, ((D v).points P).length ≤ q) {g : Space NA NB n} (h : ¬Bad E ops D q g) :
    Safe E ops D (envOf E (toReal E ops g).1) (toReal E ops g).1.2.2 := by
  have hc : ¬Clash E ops g := fun hc => h (.inl hc)
  have hp := pt_injective F hc
  obtain ⟨r1, r5, r6, r2, -⟩ := real_toReal F Z hc
  rw [slots_eq Z.n] at r5 r6
  have hH : ∀ x, x ∈ EvaluatorView.hidden (envOf E (toReal E ops g).1) (start g.2.2) ops ↔ ∃ s : Fin n, pt E ops g.2.1 g.2.2 (.inr s) = x := by
    intro x
    rw [r6]
    simp only [List.map_map, List.mem_map, List.mem_range, Function.comp]
    exact ⟨fun ⟨s, h1, h2⟩ => ⟨⟨s, h1⟩, h2⟩, fun ⟨s, h2⟩ => ⟨s, s.2, h2⟩⟩
  have hA : ∀ x, x ∈ asked (envOf E (toReal E ops g).1) (start g.2.2) ops ↔ ∃ s : Fin n, pt E ops g.2.1 g.2.2 (.inl s) = x := by
    intro x
    rw [r5]
    simp only [List.map_map, List.mem_map, List.mem_range, Function.comp]
    exact ⟨fun ⟨s, h1, h2⟩ => ⟨⟨s, h1⟩, h2⟩, fun ⟨s, h2⟩ => ⟨s, s.2, h2⟩⟩
  refine ⟨⟨r1, ?_, ?_⟩, ?_⟩
  · show (EvaluatorView.hidden (envOf E (toReal E ops g).1) (start g.2.2) ops).Nodup
    rw [r6, List.map_map]
    refine List.Nodup.map_on ?_ List.nodup_range
    intro i hi j hj e
    have := @hp (.inr ⟨i, List.mem_range.1 hi⟩) (.inr ⟨j, List.mem_range.1 hj⟩) e
    simpa using this
  · intro x hx hy
    obtain ⟨s, h1⟩ := (hH x).1 hx
    obtain ⟨s', h2⟩ := (hA x).1 hy
    have := hp (h1.trans h2.symm)
    cases this
  · have hnot : ∀ x ∈ asks E ops D (g.1, g.2.1), ¬∃ s : Fin n, pt E ops g.2.1 g.2.2 (.inr s) = x := by
      rintro x hx ⟨s, hs⟩
      obtain ⟨k, hk, e⟩ := List.mem_iff_getElem.1 hx
      have hkq : k < q := Nat.lt_of_lt_of_le hk (hq _ _)
      refine h (.inr ⟨(k, s), mem_pairs.2 ⟨hkq, s.2⟩, ?_⟩)
      show (asks E ops D (g.1, g.2.1))[k]? = some (pt E ops g.2.1 g.2.2 (.inr s))
      rw [hs, ← e]; simp
    have hpts := points_same _ (fun x hx => known_same hp hx) _ hnot
    intro x hx L t hL e
    rw [show view (envOf E (toReal E ops g).1) (toReal E ops g).1.2.2 ops = _ from r2] at hx
    have hx' : x ∈ asks E ops D (g.1, g.2.1) := by
      rw [asks, ← hpts]; exact hx
    obtain ⟨s, h1⟩ := (hA _).1 hL
    refine hnot x hx' ⟨s, ?_⟩
    simp only [pt, ptA, ptH, F.lin] at h1 ⊢
    rw [e, F.lin]
    show E.sigma _ ^^^ E.sigma (setDelta g.2.2) ^^^ _ = E.sigma L ^^^ E.sigma (setDelta g.2.2) ^^^ t
    rw [show ∀ a b c : Block, a ^^^ b ^^^ c = a ^^^ c ^^^ b from fun a b c => by ac_rfl, h1]
    ac_rfl

/-- The draw without the blocks nothing looks at. -/
def forget (NA NB n : Nat) : Space NA NB n ≃ Draw NA NB × (Fin n ⊕ Fin n → Block) where
  toFun g := ((g.1, fun k => g.2.1 (.inl k), g.2.2), fun x => g.2.1 (.inr x))
  invFun a := (a.1.1, Sum.elim a.1.2.1 a.2, a.1.2.2)
  left_inv g := by
    obtain ⟨P, v, d⟩ := g
    simp only [Prod.mk.injEq, true_and, and_true]
    funext x
    cases x <;> rfl
  right_inv a := rfl

/-- A draw is bad only as often as the draws of the game it comes from. -/
theorem transfer {E : Env} (F : Fair E) {ops : List Op} {NA NB n : Nat} (Z : Sized ops NA NB n) (B : Space NA NB n → Prop) (R : Draw NA NB → Prop)
    (hB : ∀ g, Clash E ops g → B g) (hR : ∀ g, ¬B g → ¬R (toReal E ops g).1) (c : Nat)
    (hc : Nat.card {g : Space NA NB n // B g} * 2 ^ 128 ≤ c * Nat.card (Space NA NB n)) : Nat.card {r : Draw NA NB // R r} * 2 ^ 128 ≤ c * Nat.card (Draw NA NB) := by
  have h2 : Nat.card {g : Space NA NB n // ¬B g} ≤ Nat.card ({r : Draw NA NB // ¬R r} × (Fin n ⊕ Fin n → Block)) :=
    Nat.card_le_card_of_injective (fun g : {g : Space NA NB n // ¬B g} => ((⟨(toReal E ops g.1).1, hR g.1 g.2⟩ : {r : Draw NA NB // ¬R r}), (toReal E ops g.1).2))
      fun a b e => Subtype.ext (toReal_inj F Z (fun h => a.2 (hB _ h)) (fun h => b.2 (hB _ h)) (Prod.ext (congrArg (fun x => x.1.1) e) (congrArg (fun x => x.2) e)))
  rw [Nat.card_prod] at h2
  have h3 := card_split (fun g : Space NA NB n => B g)
  have h4 := card_split (fun r : Draw NA NB => R r)
  have h7 : Nat.card (Space NA NB n) = Nat.card (Draw NA NB) * Nat.card (Fin n ⊕ Fin n → Block) := by
    rw [Nat.card_congr (forget NA NB n), Nat.card_prod]
  have hK : 0 < Nat.card (Fin n ⊕ Fin n → Block) := Nat.card_pos
  have h5 : Nat.card {r : Draw NA NB // R r} * Nat.card (Fin n ⊕ Fin n → Block) ≤ Nat.card {g : Space NA NB n // B g} := by
    have h4' := congrArg (· * Nat.card (Fin n ⊕ Fin n → Block)) h4
    simp only [Nat.add_mul] at h4'
    omega
  have h8 : Nat.card {r : Draw NA NB // R r} * 2 ^ 128 * Nat.card (Fin n ⊕ Fin n → Block) ≤ c * Nat.card (Draw NA NB) * Nat.card (Fin n ⊕ Fin n → Block) := by
    calc _ = Nat.card {r : Draw NA NB // R r} * Nat.card (Fin n ⊕ Fin n → Block) * 2 ^ 128 := Nat.mul_right_comm _ _ _
      _ ≤ _ := Nat.mul_le_mul_right _ h5
      _ ≤ _ := hc
      _ = _ := by rw [h7, ← Nat.mul_assoc _ (Nat.card (Draw NA NB))]
  exact Nat.le_of_mul_le_mul_right h8 hK

theorem sized (ops : List Op) {NA NB : Nat} (hA : inputsA ops = NA) (hB : inputsB ops = NB) : Sized ops NA NB (2 * (wiring ops).gid) ∧ (wiring ops).gid ≤ ands ops := by
  obtain ⟨c1, c2, c3, -⟩ := run_counts ops {}
  simp only [Nat.zero_add] at c1 c2 c3
  exact ⟨⟨c1.trans hA, c2.trans hB, rfl⟩, c3⟩

theorem bound_counts (ops : List Op) (q : Nat) : (secrets ops).length * 4 + 2 * (wiring ops).gid * (2 * (wiring ops).gid) * 3 + q * (2 * (wiring ops).gid) * 2
    ≤ 4 * wires ops + 12 * (ands ops * ands ops) + 4 * (q * ands ops) := by
  have e0 := secrets_length ops
  have hn : (wiring ops).gid ≤ ands ops := (sized ops rfl rfl).2
  have e1 : 2 * (wiring ops).gid * (2 * (wiring ops).gid) ≤ 4 * (ands ops * ands ops) := by
    calc _ = 4 * ((wiring ops).gid * (wiring ops).gid) := by rw [Nat.mul_mul_mul_comm]
      _ ≤ _ := Nat.mul_le_mul_left _ (Nat.mul_le_mul hn hn)
  have e2 : q * (2 * (wiring ops).gid) ≤ 2 * (q * ands ops) := by
    calc _ = 2 * (q * (wiring ops).gid) := Nat.mul_left_comm _ _ _
      _ ≤ _ := Nat.mul_le_mul_left _ (Nat.mul_le_mul_left _ hn)
  omega

/-- How many draws are not safe. -/
theorem card_exposed {E : Env} (F : Fair E) (ops : List Op) (h63 : ands ops ≤ 2 ^ 63) {NA NB : Nat} (hA : inputsA ops = NA) (hB : inputsB ops = NB)
    (D : View → Ask Bool) (q : Nat) (hq : ∀ v P, ((D v).points P).length ≤ q) :
    Nat.card {r : Draw NA NB // ¬Safe E ops D (envOf E r) r.2.2} * 2 ^ 128
      ≤ (4 * wires ops + 12 * (ands ops * ands ops) + 4 * (q * ands ops)) * Nat.card (Draw NA NB) := by
  obtain ⟨Z, c⟩ := sized ops hA hB
  exact (transfer F Z (Bad E ops D q) _ (fun g h => .inl h) (fun g h => not_not_intro (safe_toReal F Z hq h)) _ (card_bad F Z (by omega) D q)).trans
    (Nat.mul_le_mul_right _ (bound_counts ops q))

/-- **C69, coincidences.**  Whatever both parties feed: of all functions under the hash, labels of ALICE's inputs, blocks of the correlated OTs and offsets only the part
`(4 W + 12 A²) / 2^128` gives a run in which two labels or two points of the hash coincide, for `W` wires and `A` AND gates. -/
theorem C69_coincidence {E : Env} (F : Fair E) (ops : List Op) (h63 : ands ops ≤ 2 ^ 63) {NA NB : Nat} (hA : inputsA ops = NA) (hB : inputsB ops = NB) :
    Nat.card {r : Draw NA NB // ¬Good (envOf E r) r.2.2 ops} * 2 ^ 128 ≤ (4 * wires ops + 12 * (ands ops * ands ops)) * Nat.card (Draw NA NB) := by
  have h := card_exposed F ops h63 hA hB (fun _ => .done false) 0 (fun _ _ => Nat.le_refl 0)
  rw [Nat.zero_mul, Nat.mul_zero, Nat.add_zero] at h
  have h1 : ∀ r : Draw NA NB, ¬Good (envOf E r) r.2.2 ops → ¬Safe E ops (fun _ => .done false) (envOf E r) r.2.2 := fun r hr hs => hr hs.1
  exact (Nat.mul_le_mul_right _ (card_mono h1)).trans h

/-- The run ends, nothing is left on the way, both parties have counted the same gates, and every opened value is the plain one. -/
def Correct (E : Env) (d : Block) (ops : List Op) : Prop :=
  ∃ os n', (start d).run E ops = .ok (os, n') ∧ List.Forall₂ RevealOk os (Circuit.opened [] ops) ∧ n'.toEva = [] ∧ n'.toGen = [] ∧ n'.eva.gid = n'.gen.gid

/-- **C69, correctness.**  C17 without its hypothesis: all but the part `(4 W + 12 A²) / 2^128` of the draws give a run that opens the plain values. -/
theorem C69_correct {E : Env} (F : Fair E) (ops : List Op) (h63 : ands ops ≤ 2 ^ 63) {NA NB : Nat} (hA : inputsA ops = NA) (hB : inputsB ops = NB) :
    Nat.card {r : Draw NA NB // ¬Correct (envOf E r) r.2.2 ops} * 2 ^ 128 ≤ (4 * wires ops + 12 * (ands ops * ands ops)) * Nat.card (Draw NA NB) := by
  have h1 : ∀ r : Draw NA NB, ¬Correct (envOf E r) r.2.2 ops → ¬Good (envOf E r) r.2.2 ops := fun r hr hg =>
    hr (net_run _ ops _ [] (start_inv _) (apart_run ops _ [] (start_clear _) hg.1))
  exact (Nat.mul_le_mul_right _ (card_mono h1)).trans (C69_coincidence F ops h63 hA hB)

/-- **C69.**  A distinguisher gets everything the evaluator gets, holds, outputs and sends, and may ask for `q` more values of the function under the hash.  With the one input
of ALICE it says yes in at most the part `(4 W + 12 A² + 4 A q) / 2^128` of all cases more often than with the other, if both open the same values to BOB. -/
theorem C69_advantage {E : Env} (F : Fair E) (ops ops' : List Op) (hb : ops.map blindA = ops'.map blindA)
    (ho : toBob (Circuit.opened [] ops) = toBob (Circuit.opened [] ops')) (h63 : ands ops ≤ 2 ^ 63) {NA NB : Nat} (hA : inputsA ops = NA) (hB : inputsB ops = NB)
    (D : View → Ask Bool) (q : Nat) (hq : ∀ v P, ((D v).points P).length ≤ q) :
    Nat.card {r : Draw NA NB // (D (view (envOf E r) r.2.2 ops)).run r.1 = true} * 2 ^ 128
      ≤ Nat.card {r : Draw NA NB // (D (view (envOf E r) r.2.2 ops')).run r.1 = true} * 2 ^ 128
        + (4 * wires ops + 12 * (ands ops * ands ops) + 4 * (q * ands ops)) * Nat.card (Draw NA NB) := by
  have hu := card_exposed F ops h63 hA hB D q hq
  have h1 : Nat.card {r : Draw NA NB // (D (view (envOf E r) r.2.2 ops)).run r.1 = true ∧ Safe E ops D (envOf E r) r.2.2}
      ≤ Nat.card {r : Draw NA NB // (D (view (envOf E r) r.2.2 ops')).run r.1 = true} := by
    refine Nat.card_le_card_of_injective (fun r : {r : Draw NA NB // (D (view (envOf E r) r.2.2 ops)).run r.1 = true ∧ Safe E ops D (envOf E r) r.2.2} =>
      (⟨(repair (envOf E r.1) r.1.2.2 ops ops', r.1.2.1, r.1.2.2), ?_⟩ : {r : Draw NA NB // (D (view (envOf E r) r.2.2 ops')).run r.1 = true})) ?_
    · exact (C62_distinguisher (envOf E r.1) r.1.2.2 ops ops' hb ho r.2.2.1 D r.2.2.2).trans r.2.1
    · rintro ⟨⟨P, v, d⟩, r1, r2⟩ ⟨⟨P', v', d'⟩, r1', r2'⟩ e
      have e1 : repair (envOf E (P, v, d)) d ops ops' = repair (envOf E (P', v', d')) d' ops ops' := congrArg (fun x => x.1.1) e
      have e2 : v = v' := congrArg (fun x => x.1.2.1) e
      have e3 : d = d' := congrArg (fun x => x.1.2.2) e
      subst e2 e3
      obtain ⟨-, -, -, k4⟩ := C62_private (envOf E (P, v, d)) d ops ops' hb ho r2.1
      obtain ⟨-, -, -, k4'⟩ := C62_private (envOf E (P', v, d)) d ops ops' hb ho r2'.1
      have p : (envOf E (P, v, d)).perm = (envOf E (P', v, d)).perm := by
        rw [← k4, ← k4', e1]
        rfl
      have p1 : P = P' := p
      subst p1
      rfl
  have h2 : Nat.card {r : Draw NA NB // (D (view (envOf E r) r.2.2 ops)).run r.1 = true}
      ≤ Nat.card {r : Draw NA NB // (D (view (envOf E r) r.2.2 ops)).run r.1 = true ∧ Safe E ops D (envOf E r) r.2.2}
        + Nat.card {r : Draw NA NB // ¬Safe E ops D (envOf E r) r.2.2} :=
    (card_mono fun r hr => (Classical.em (Safe E ops D (envOf E r) r.2.2)).elim (fun h => .inl ⟨hr, h⟩) .inr).trans (card_or _ _)
  calc _ ≤ _ := Nat.mul_le_mul_right _ (h2.trans (Nat.add_le_add_right h1 _))
    _ = _ := Nat.add_mul _ _ _
    _ ≤ _ := Nat.add_le_add_left hu _

/-! ### A case -/

def caseEnv : Env where
  perm := id
  sigma := swap
  hash := fun _ => 0
  prg := fun _ => 0
  cotK := fun _ => 0
  cotR := fun _ => false
  fixPoint := GC.makeBlock 7 1
  const0 := 0
  const1 := 0

theorem case_fair : Fair caseEnv := by
  refine ⟨swap_lin, swap_inj, by decide, fun u h => ?_⟩
  have h1 : (swap (GC.makeBlock 7 1)).extractLsb' 0 64 = 0 := by
    rw [show swap (GC.makeBlock 7 1) = GC.makeBlock u 0 from h]
    apply BitVec.eq_of_getLsbD_eq
    intro i hi
    simp only [GC.makeBlock, BitVec.getLsbD_extractLsb', BitVec.getLsbD_append]
    simp [hi]
  exact absurd h1 (by decide)

def caseOps (a : Bool) : List Op := [.inA a, .inB false, .and 0 1, .not 2, .reveal .bob [3]]

/-- ALICE feeds 0 or 1, BOB feeds 0: the AND is 0 both times.  The distinguisher asks for one more value. -/
example (point : View → Block) (D : View → Ask Bool) (hD : D = fun v => .ask (point v) fun y => .done (lsb y)) :
    Nat.card {r : Draw 1 1 // (D (view (envOf caseEnv r) r.2.2 (caseOps false))).run r.1 = true} * 2 ^ 128
      ≤ Nat.card {r : Draw 1 1 // (D (view (envOf caseEnv r) r.2.2 (caseOps true))).run r.1 = true} * 2 ^ 128 + 32 * Nat.card (Draw 1 1) := by
  have h := C69_advantage case_fair (caseOps false) (caseOps true) rfl rfl
    (by rw [show ands (caseOps false) = 1 from rfl]; omega) (NA := 1) (NB := 1) rfl rfl D 1 (fun v P => by rw [hD]; exact Nat.le_refl 1)
  rw [show ands (caseOps false) = 1 from rfl, show wires (caseOps false) = 4 from rfl] at h
  exact h

example : Nat.card {r : Draw 1 1 // ¬Correct (envOf caseEnv r) r.2.2 (caseOps true)} * 2 ^ 128 ≤ 28 * Nat.card (Draw 1 1) := by
  have h := C69_correct case_fair (caseOps true) (by rw [show ands (caseOps true) = 1 from rfl]; omega) (NA := 1) (NB := 1) rfl rfl
  rw [show ands (caseOps true) = 1 from rfl, show wires (caseOps true) = 4 from rfl] at h
  exact h

example (NA NB : Nat) : 0 < Nat.card (Draw NA NB) := Nat.card_pos

end Verif.Props.BackendBound
