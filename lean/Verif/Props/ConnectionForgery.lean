import Verif.Props.ConnectionAdvantage
import Verif.Props.OpeningForgery
import Verif.Props.BackendForgery

/-!
C72 for a connection: how often BOB, who evaluates, gets wrong values accepted at the openings of a connection (`verify` data, key stream of records that are not secret, inner
hashes of the PRF).  The openings and the number of gates are those of C70.
-/

namespace Verif.Props.Profile
open Verif.Model Verif.Model.Gate Verif.Lemmas.Profile
open Verif.Lemmas.Gate (LibObl Same Matches erase empLib_obl plain)
open Verif.Spec.Circuit (Op Party)
open Verif.Spec
open Verif.Props.EvaluatorBound (ands splits Forged Collision)
open Verif.Props.EvaluatorView (Ask)

variable {L : Lib}

theorem shown_pub (rounds fresh : Bool) (op : Call) : ∀ y ∈ shown rounds fresh op, y.1 = .pub := by
  cases op <;> cases rounds <;> cases fresh <;> simp [shown]

theorem shownAll_pub (rounds : Bool) : ∀ (ops : List Call) (fresh : Bool), ∀ y ∈ shownAll rounds fresh ops, y.1 = .pub
  | [], _, y, h => by cases h
  | op :: ops, fresh, y, h => by
    rw [shownAll, List.mem_append] at h
    exact h.elim (shown_pub rounds fresh op y) (shownAll_pub rounds ops _ y)

/-- The PUBLIC openings are those where something can be forged. -/
theorem splits_openings : ∀ ops : List Op, (∀ y ∈ openings ops, y.1 = .pub) → (splits ops).map (fun x => x.2.1.length) = (openings ops).map (·.2)
  | [], _ => rfl
  | op :: ops, h => by
    have key : ∀ op' : Op, ((splits ops).map fun x => (op' :: x.1, x.2)).map (fun x => x.2.1.length) = (splits ops).map fun x => x.2.1.length := fun op' => by
      rw [List.map_map]; rfl
    cases op with
    | reveal p ws =>
      have hp : p = .pub := h _ (List.mem_cons_self ..)
      subst hp
      simp only [splits, openings, List.map_cons, key]
      rw [splits_openings ops fun y hy => h y (List.mem_cons_of_mem _ hy)]
    | _ =>
      simp only [splits, key]
      exact splits_openings ops h

/-- The openings of a connection are those of the profile. -/
theorem splits_shown (hL : LibCost L) (q : Nat) (hq : bnNumBytes q < 2 ^ 56) (rounds : Bool) (ops : List Call) (hs : ∀ op ∈ ops, Small op) (hn : ops.length < 2 ^ 53)
    (O : Oracle) (x : List Out × ConnG) (t : Sess) (e : conn L q rounds ops O {} = .ok (x, t)) :
    (splits t.program).length = (shownAll rounds true ops).length ∧ ∀ s ∈ splits t.program, ∃ y ∈ shownAll rounds true ops, y.2 = s.2.1.length := by
  have ho := C70_openings hL q hq rounds ops hs hn O x t e
  have hsp := splits_openings t.program (by rw [ho]; exact shownAll_pub rounds ops true)
  rw [ho] at hsp
  refine ⟨by simpa using congrArg List.length hsp, fun s hs => ?_⟩
  have : s.2.1.length ∈ (shownAll rounds true ops).map (·.2) := by rw [← hsp]; exact List.mem_map_of_mem hs
  exact List.mem_map.1 this

/-- **C72, connections.**  BOB follows the protocol up to any opening of a connection and sends there any bits and the digest of any blocks, computed from all it has seen and
`n` more values of the function under the hash.  For at most the part `K (12 A² + 4 A n + 2 m) / 2^128` of all draws ALICE takes a wrong value at one of the `K` openings of
at most `m` bits, if no digest is that of two different lists.  `A` is the number of AND gates of the profile. -/
theorem C72_connection (hL : LibCost L) (hO : LibObl L) (q : Nat) (hq : bnNumBytes q < 2 ^ 56) (rounds : Bool) (ops : List Call) (ops' : List OffCall)
    (hm : List.Forall₂ (Matches rounds) ops ops') (hs : ∀ op ∈ ops, Small op) (hn : ops.length < 2 ^ 53) (O O' : Oracle) (x : List Out × ConnG) (t : Sess)
    (e : conn L q rounds ops O {} = .ok (x, t)) (A : Nat) (hA : (profile q rounds ops).ands = A) (h63 : A ≤ 2 ^ 63) (m : Nat)
    (hb : ∀ y ∈ shownAll rounds true ops, y.2 ≤ m) {E : GC.Env} (F : EvaluatorBound.Fair E) {N : Nat} (hN : N = (EvaluatorViewOnline.allInputs t.program).length)
    (D : List Op → EvaluatorBound.View → Ask (List Bool × List Block)) (n : Nat) (hD : ∀ p v P, ((D p v).points P).length ≤ n) :
    ∃ y t', ConnOff.run L { hs := { q := q, roundsOpt := rounds } } ops' O' {} = .ok (y, t')
      ∧ Nat.card {r : EvaluatorBound.Draw N // ∃ s ∈ splits t.program,
            Forged (EvaluatorBound.envOf E r) r.2.2 t'.program s.1 s.2.1 ((D s.1 (EvaluatorViewOnline.view (EvaluatorBound.envOf E r) r.2.2 t'.program s.1)).run r.1)
            ∧ ¬Collision (EvaluatorBound.envOf E r) r.2.2 t'.program s.1 s.2.1 ((D s.1 (EvaluatorViewOnline.view (EvaluatorBound.envOf E r) r.2.2 t'.program s.1)).run r.1)} * 2 ^ 128
        ≤ (shownAll rounds true ops).length * (12 * (A * A) + 4 * (n * A) + 2 * m) * Nat.card (EvaluatorBound.Draw N) := by
  obtain ⟨y, t', e', h1⟩ := Offline.C44_connection hO q rounds ops ops' hm O O' t x e
  have hsh := Offline.program_same ⟨h1.1.symm, h1.2.symm⟩
  have ha : ands t.program = A := (C70_counts hL q hq rounds ops hs hn O x t e).2.2.1.trans hA
  obtain ⟨hlen, hl⟩ := splits_shown hL q hq rounds ops hs hn O x t e
  have h := EvaluatorBound.C72_run F t'.program t.program hsh (by rw [ha]; exact h63) hN m (fun s hs => by
    obtain ⟨y, y1, y2⟩ := hl s hs
    rw [← y2]; exact hb y y1) D n hD
  rw [ha, hlen] at h
  exact ⟨y, t', e', h⟩

/-- **C72, connections over the ordinary backend.**  The same for wires that are no constants, with `4 W` more for the coincidences of labels. -/
theorem C72_connection_ordinary (hL : LibCost L) (q : Nat) (hq : bnNumBytes q < 2 ^ 56) (rounds : Bool) (ops : List Call) (hs : ∀ op ∈ ops, Small op)
    (hn : ops.length < 2 ^ 53) (O : Oracle) (x : List Out × ConnG) (t : Sess) (e : conn L q rounds ops O {} = .ok (x, t)) (A W : Nat)
    (hA : (profile q rounds ops).ands = A) (h63 : A ≤ 2 ^ 63) (hW : 2 + bitsIn (profile q rounds ops).io + (profile q rounds ops).ands + (profile q rounds ops).frees = W)
    (m : Nat) (hb : ∀ y ∈ shownAll rounds true ops, y.2 ≤ m) {E : GC.Env} (F : BackendBound.Fair E) {NA NB : Nat} (hNA : BackendBound.inputsA t.program = NA)
    (hNB : BackendBound.inputsB t.program = NB) (D : List Op → BackendBound.View → Ask (List Bool × List Block)) (n : Nat) (hD : ∀ p v P, ((D p v).points P).length ≤ n) :
    Nat.card {r : BackendBound.Draw NA NB // ∃ s ∈ splits t.program,
        BackendBound.Forged (BackendBound.envOf E r) r.2.2 s.1 s.2.1 ((D s.1 (EvaluatorView.view (BackendBound.envOf E r) r.2.2 s.1)).run r.1)
        ∧ ¬BackendBound.Collision (BackendBound.envOf E r) r.2.2 s.1 s.2.1 ((D s.1 (EvaluatorView.view (BackendBound.envOf E r) r.2.2 s.1)).run r.1)} * 2 ^ 128
      ≤ (shownAll rounds true ops).length * (4 * W + 12 * (A * A) + 4 * (n * A) + 2 * m) * Nat.card (BackendBound.Draw NA NB) := by
  obtain ⟨-, -, ha, hw⟩ := C70_counts hL q hq rounds ops hs hn O x t e
  rw [hA] at ha
  rw [hW] at hw
  obtain ⟨hlen, hl⟩ := splits_shown hL q hq rounds ops hs hn O x t e
  have h := BackendBound.C72_ordinary_run (NA := NA) (NB := NB) F t.program (by rw [ha]; exact h63) hNA hNB m (fun s hs => by
    obtain ⟨y, y1, y2⟩ := hl s hs
    rw [← y2]; exact hb y y1) D n hD
  rwa [ha, hw, hlen] at h

/-! ### A case -/

theorem exAnds : (profile 251 true exOps).ands = 865949 := by decide +kernel

theorem cutForged (x c : Nat) (h : x * 2 ^ 128 ≤ 3 * (12 * (865949 * 865949) + 4 * (2 ^ 64 * 865949) + 2 * 160) * c) : x * 2 ^ 40 ≤ c := by
  refine Nat.le_of_mul_le_mul_right (c := 2 ^ 88) ?_ (by decide)
  rw [Nat.mul_assoc x, ← Nat.pow_add, Nat.mul_comm c]
  exact h.trans (Nat.mul_le_mul_right _ (by decide))

/-- A connection with both finished messages and a record that is not secret: three openings of at most 160 bits.  With 2^64 more values of the function BOB gets a wrong
value accepted for at most the part 2^-40 of all draws. -/
example (O' : Oracle) (D : List Op → EvaluatorBound.View → Ask (List Bool × List Block)) (hD : ∀ p v P, ((D p v).points P).length ≤ 2 ^ 64) :
    ∃ N t t', (∃ x, conn empLib 251 true exOps plain {} = .ok (x, t)) ∧ (∃ y, ConnOff.run empLib { hs := { q := 251, roundsOpt := true } } Garbled.exOff O' {} = .ok (y, t'))
      ∧ Nat.card {r : EvaluatorBound.Draw N // ∃ s ∈ splits t.program,
            Forged (EvaluatorBound.envOf EvaluatorBound.caseEnv r) r.2.2 t'.program s.1 s.2.1
              ((D s.1 (EvaluatorViewOnline.view (EvaluatorBound.envOf EvaluatorBound.caseEnv r) r.2.2 t'.program s.1)).run r.1)
            ∧ ¬Collision (EvaluatorBound.envOf EvaluatorBound.caseEnv r) r.2.2 t'.program s.1 s.2.1
              ((D s.1 (EvaluatorViewOnline.view (EvaluatorBound.envOf EvaluatorBound.caseEnv r) r.2.2 t'.program s.1)).run r.1)} * 2 ^ 40
        ≤ Nat.card (EvaluatorBound.Draw N) := by
  obtain ⟨x, t, e⟩ := exOps_run true
  obtain ⟨y, t', e', h⟩ := C72_connection empLib_cost empLib_obl 251 (by decide +kernel) true exOps Garbled.exOff (Garbled.exMatch true) exOps_small (by decide) plain O' x t e
    _ exAnds (by decide) 160 (by
      rw [show shownAll true true exOps = [(.pub, 96), (.pub, 96), (.pub, 160)] from rfl]
      intro y hy
      simp only [List.mem_cons, List.not_mem_nil, or_false] at hy
      rcases hy with rfl | rfl | rfl <;> decide) EvaluatorBound.case_fair rfl D (2 ^ 64) hD
  exact ⟨_, t, t', ⟨x, e⟩, ⟨y, e'⟩, cutForged _ _ h⟩

theorem exWires : 2 + bitsIn (profile 251 true exOps).io + (profile 251 true exOps).ands + (profile 251 true exOps).frees = 5497409 := by decide +kernel

theorem cutOrdinary (x c : Nat) (h : x * 2 ^ 128 ≤ 3 * (4 * 5497409 + 12 * (865949 * 865949) + 4 * (2 ^ 64 * 865949) + 2 * 160) * c) : x * 2 ^ 40 ≤ c := by
  refine Nat.le_of_mul_le_mul_right (c := 2 ^ 88) ?_ (by decide)
  rw [Nat.mul_assoc x, ← Nat.pow_add, Nat.mul_comm c]
  exact h.trans (Nat.mul_le_mul_right _ (by decide))

/-- The same connection over the ordinary backend. -/
example (D : List Op → BackendBound.View → Ask (List Bool × List Block)) (hD : ∀ p v P, ((D p v).points P).length ≤ 2 ^ 64) :
    ∃ NA NB t, (∃ x, conn empLib 251 true exOps plain {} = .ok (x, t))
      ∧ Nat.card {r : BackendBound.Draw NA NB // ∃ s ∈ splits t.program,
          BackendBound.Forged (BackendBound.envOf BackendBound.caseEnv r) r.2.2 s.1 s.2.1 ((D s.1 (EvaluatorView.view (BackendBound.envOf BackendBound.caseEnv r) r.2.2 s.1)).run r.1)
          ∧ ¬BackendBound.Collision (BackendBound.envOf BackendBound.caseEnv r) r.2.2 s.1 s.2.1
            ((D s.1 (EvaluatorView.view (BackendBound.envOf BackendBound.caseEnv r) r.2.2 s.1)).run r.1)} * 2 ^ 40
        ≤ Nat.card (BackendBound.Draw NA NB) := by
  obtain ⟨x, t, e⟩ := exOps_run true
  have h := C72_connection_ordinary empLib_cost 251 (by decide +kernel) true exOps exOps_small (by decide) plain x t e _ _ exAnds (by decide) exWires 160 (by
      rw [show shownAll true true exOps = [(.pub, 96), (.pub, 96), (.pub, 160)] from rfl]
      intro y hy
      simp only [List.mem_cons, List.not_mem_nil, or_false] at hy
      rcases hy with rfl | rfl | rfl <;> decide) BackendBound.case_fair rfl rfl D (2 ^ 64) hD
  exact ⟨_, _, t, ⟨x, e⟩, cutOrdinary _ _ h⟩

end Verif.Props.Profile
