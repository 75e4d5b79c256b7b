import Verif.Props.Profile

/-!
C71: how well BOB, who evaluates, can tell two runs of a connection apart that differ in what ALICE feeds.

The programs a connection hands to the backends are put into the bounds C67 (offline/online backend) and C69 (ordinary backend); the number of gates is that of the profile.
-/

namespace Verif.Props.Profile
open Verif.Model Verif.Model.Gate Verif.Lemmas.Profile
open Verif.Lemmas.Gate (LibObl Same Matches erase empLib_obl plain)
open Verif.Spec.Circuit (Op Party)
open Verif.Spec
open Verif.Spec.Profile (Item Cost)
open Verif.Props.EvaluatorBound (ands)
open Verif.Props.BackendBound (inputsA inputsB wires)
open Verif.Props.EvaluatorView (blindA toBob Ask)

variable {L : Lib}

theorem blind_feed (x y : List Bool) (h : x.length = y.length) : (x.map Op.inA).map blindA = (y.map Op.inA).map blindA := by
  induction x generalizing y with
  | nil => cases y with | nil => rfl | cons => cases h
  | cons a x ih =>
    cases y with
    | nil => cases h
    | cons b y => exact congrArg (Op.inA false :: ·) (ih y (Nat.succ.inj h))

/-- The same operations and the same bits of BOB: programs that differ in the bits of ALICE only. -/
theorem blind_same : ∀ x y : List Ev, x.map erase = y.map erase → fedByBob (x.flatMap evOps) = fedByBob (y.flatMap evOps) →
    (x.flatMap evOps).map blindA = (y.flatMap evOps).map blindA
  | [], [], _, _ => rfl
  | [], _ :: _, h, _ => nomatch h
  | _ :: _, [], h, _ => nomatch h
  | a :: x, b :: y, h, hb => by
    obtain ⟨h1, h2⟩ := List.cons.inj h
    rw [List.flatMap_cons, List.flatMap_cons] at hb ⊢
    rw [fedByBob_append, fedByBob_append] at hb
    rw [List.map_append, List.map_append]
    have key : (evOps a).map blindA = (evOps b).map blindA ∧ fedByBob (evOps a) = fedByBob (evOps b) := by
      have hlen : (fedByBob (evOps a)).length = (fedByBob (evOps b)).length := by
        rw [(ev_facts a).2.1, (ev_facts b).2.1]
        have : ∀ e, (bobsBits (evCost e).io).length = (bobsBits (evCost (erase e)).io).length := by
          intro e
          cases e with
          | feed p bits => cases p <;> simp [evCost, erase, bobsBits, Spec.Profile.feed, Spec.Profile.feedBob]
          | _ => rfl
        rw [this a, this b, h1]
      have hf := (List.append_inj hb hlen).1
      refine ⟨?_, hf⟩
      cases a with
      | feed p bits =>
        cases p with
        | alice =>
          cases b with
          | feed p' bits' =>
            cases p' <;> simp only [erase, Ev.feed.injEq, reduceCtorEq, false_and, true_and] at h1
            exact blind_feed _ _ (by simpa using congrArg List.length h1)
          | _ => simp [erase] at h1
        | bob =>
          cases b with
          | feed p' bits' =>
            cases p' <;> simp only [erase, Ev.feed.injEq, reduceCtorEq, false_and, true_and] at h1
            have k1 := (inB_facts bits).2.1
            have k2 := (inB_facts bits').2.1
            have : bits = bits' := by rw [← k1, ← k2]; exact hf
            rw [this]
          | _ => simp [erase] at h1
        | pub =>
          cases b with
          | feed p' bits' => cases p' <;> simp [erase] at h1; rw [h1]
          | _ => simp [erase] at h1
      | and => cases b with
        | feed p' bits' => cases p' <;> simp [erase] at h1
        | _ => simp only [erase, reduceCtorEq] at h1 <;> rw [h1]
      | xor => cases b with
        | feed p' bits' => cases p' <;> simp [erase] at h1
        | _ => simp only [erase, reduceCtorEq] at h1 <;> rw [h1]
      | not => cases b with
        | feed p' bits' => cases p' <;> simp [erase] at h1
        | _ => simp only [erase, reduceCtorEq] at h1 <;> rw [h1]
      | reveal => cases b with
        | feed p' bits' => cases p' <;> simp [erase] at h1
        | _ => simp only [erase, reduceCtorEq] at h1 <;> rw [h1]
    rw [key.1, blind_same x y h2 (List.append_inj hb (by rw [key.2])).2]

theorem fedByBob_reverse_start (l : List Op) : fedByBob ([.pub false, .pub true] ++ l) = fedByBob l := rfl

/-- **C71, programs.**  Two runs of the same calls with the same shares of BOB hand the backends programs that differ in the bits of ALICE only, whatever was opened; the
offline phase prepares a program of the same shape. -/
theorem C71_programs (hL : LibCost L) (hO : LibObl L) (q : Nat) (hq : bnNumBytes q < 2 ^ 56) (rounds : Bool) (ops ops₂ : List Call) (ops' : List OffCall)
    (hm : List.Forall₂ (Matches rounds) ops ops') (hm₂ : List.Forall₂ (Matches rounds) ops₂ ops') (hs : ∀ op ∈ ops, Small op) (hs₂ : ∀ op ∈ ops₂, Small op)
    (hn : ops.length < 2 ^ 53) (hn₂ : ops₂.length < 2 ^ 53) (hB : ops.flatMap (shareBits q) = ops₂.flatMap (shareBits q)) (O O₂ O' : Oracle)
    (x x₂ : List Out × ConnG) (t t₂ : Sess) (e : conn L q rounds ops O {} = .ok (x, t)) (e₂ : conn L q rounds ops₂ O₂ {} = .ok (x₂, t₂)) :
    t.program.map blindA = t₂.program.map blindA
      ∧ ∃ y t', ConnOff.run L { hs := { q := q, roundsOpt := rounds } } ops' O' {} = .ok (y, t') ∧ List.Forall₂ SameShape t'.program t.program := by
  obtain ⟨y, t', e', h1⟩ := Offline.C44_connection hO q rounds ops ops' hm O O' t x e
  obtain ⟨y₂, t'', e'', h2⟩ := Offline.C44_connection hO q rounds ops₂ ops' hm₂ O₂ O' t₂ x₂ e₂
  rw [e'] at e''
  obtain rfl : t' = t'' := congrArg Prod.snd (Except.ok.inj e'')
  refine ⟨?_, y, t', e', Offline.program_same ⟨h1.1.symm, h1.2.symm⟩⟩
  have b1 := C70_bob hL q hq rounds ops hs hn O x t e
  have b2 := C70_bob hL q hq rounds ops₂ hs₂ hn₂ O₂ x₂ t₂ e₂
  rw [← hB, ← b1] at b2
  unfold Sess.program at b2 ⊢
  rw [fedByBob_reverse_start, fedByBob_reverse_start] at b2
  rw [List.map_append, List.map_append, blind_same t.evs.reverse t₂.evs.reverse (by rw [List.map_reverse, List.map_reverse, h1.1, h2.1]) b2.symm]

/-- **C71, offline/online backend.**  BOB gets, stores, holds, outputs and sends what it does in both phases of a connection and may ask for `n` more values of the function
under the hash; it says yes for one run in at most the part `(12 A² + 4 A n) / 2^128` of all cases more often than for the other, if both open the same values.  `A` is the
number of AND gates of the profile. -/
theorem C71_online (hL : LibCost L) (hO : LibObl L) (q : Nat) (hq : bnNumBytes q < 2 ^ 56) (rounds : Bool) (ops ops₂ : List Call) (ops' : List OffCall)
    (hm : List.Forall₂ (Matches rounds) ops ops') (hm₂ : List.Forall₂ (Matches rounds) ops₂ ops') (hs : ∀ op ∈ ops, Small op) (hs₂ : ∀ op ∈ ops₂, Small op)
    (hn : ops.length < 2 ^ 53) (hn₂ : ops₂.length < 2 ^ 53) (hB : ops.flatMap (shareBits q) = ops₂.flatMap (shareBits q)) (O O₂ O' : Oracle)
    (x x₂ : List Out × ConnG) (t t₂ : Sess) (e : conn L q rounds ops O {} = .ok (x, t)) (e₂ : conn L q rounds ops₂ O₂ {} = .ok (x₂, t₂))
    (ho : toBob (Circuit.opened [] t.program) = toBob (Circuit.opened [] t₂.program)) (A : Nat) (hA : (profile q rounds ops).ands = A) (h63 : A ≤ 2 ^ 63)
    {E : GC.Env} (F : EvaluatorBound.Fair E) {N : Nat} (hN : N = (EvaluatorViewOnline.allInputs t.program).length)
    (D : EvaluatorBound.View → Ask Bool) (n : Nat) (hD : ∀ v P, ((D v).points P).length ≤ n) :
    ∃ y t', ConnOff.run L { hs := { q := q, roundsOpt := rounds } } ops' O' {} = .ok (y, t')
      ∧ Nat.card {r : EvaluatorBound.Draw N // (D (EvaluatorViewOnline.view (EvaluatorBound.envOf E r) r.2.2 t'.program t.program)).run r.1 = true} * 2 ^ 128
        ≤ Nat.card {r : EvaluatorBound.Draw N // (D (EvaluatorViewOnline.view (EvaluatorBound.envOf E r) r.2.2 t'.program t₂.program)).run r.1 = true} * 2 ^ 128
          + (12 * (A * A) + 4 * (n * A)) * Nat.card (EvaluatorBound.Draw N) := by
  obtain ⟨hb, y, t', e', hsh⟩ := C71_programs hL hO q hq rounds ops ops₂ ops' hm hm₂ hs hs₂ hn hn₂ hB O O₂ O' x x₂ t t₂ e e₂
  have ha : ands t.program = A := (C70_counts hL q hq rounds ops hs hn O x t e).2.2.1.trans hA
  have h := EvaluatorBound.C67_advantage F t'.program t.program t₂.program hsh hb ho (by rw [ha]; exact h63) hN D n hD
  rw [ha] at h
  exact ⟨y, t', e', h⟩

/-- **C71, ordinary backend.**  The same for the connection without an offline phase; `W` is the number of wires. -/
theorem C71_ordinary (hL : LibCost L) (hO : LibObl L) (q : Nat) (hq : bnNumBytes q < 2 ^ 56) (rounds : Bool) (ops ops₂ : List Call) (ops' : List OffCall)
    (hm : List.Forall₂ (Matches rounds) ops ops') (hm₂ : List.Forall₂ (Matches rounds) ops₂ ops') (hs : ∀ op ∈ ops, Small op) (hs₂ : ∀ op ∈ ops₂, Small op)
    (hn : ops.length < 2 ^ 53) (hn₂ : ops₂.length < 2 ^ 53) (hB : ops.flatMap (shareBits q) = ops₂.flatMap (shareBits q)) (O O₂ : Oracle)
    (x x₂ : List Out × ConnG) (t t₂ : Sess) (e : conn L q rounds ops O {} = .ok (x, t)) (e₂ : conn L q rounds ops₂ O₂ {} = .ok (x₂, t₂))
    (ho : toBob (Circuit.opened [] t.program) = toBob (Circuit.opened [] t₂.program)) (A W : Nat) (hA : (profile q rounds ops).ands = A) (h63 : A ≤ 2 ^ 63)
    (hW : 2 + bitsIn (profile q rounds ops).io + (profile q rounds ops).ands + (profile q rounds ops).frees = W)
    {E : GC.Env} (F : BackendBound.Fair E) {NA NB : Nat} (hNA : inputsA t.program = NA) (hNB : inputsB t.program = NB)
    (D : BackendBound.View → Ask Bool) (n : Nat) (hD : ∀ v P, ((D v).points P).length ≤ n) :
    Nat.card {r : BackendBound.Draw NA NB // (D (EvaluatorView.view (BackendBound.envOf E r) r.2.2 t.program)).run r.1 = true} * 2 ^ 128
      ≤ Nat.card {r : BackendBound.Draw NA NB // (D (EvaluatorView.view (BackendBound.envOf E r) r.2.2 t₂.program)).run r.1 = true} * 2 ^ 128
        + (4 * W + 12 * (A * A) + 4 * (n * A)) * Nat.card (BackendBound.Draw NA NB) := by
  obtain ⟨hb, -⟩ := C71_programs hL hO q hq rounds ops ops₂ ops' hm hm₂ hs hs₂ hn hn₂ hB O O₂ O x x₂ t t₂ e e₂
  obtain ⟨-, -, ha, hw⟩ := C70_counts hL q hq rounds ops hs hn O x t e
  rw [hA] at ha
  rw [hW] at hw
  have h := BackendBound.C69_advantage F t.program t₂.program hb ho (by rw [ha]; exact h63) hNA hNB D n hD
  rwa [ha, hw] at h

/-! ### Connections that open nothing -/

theorem opened_nil : ∀ (ops : List Op) (w : List Bool), openings ops = [] → Circuit.opened w ops = []
  | [], _, _ => rfl
  | op :: ops, w, h => by
    cases op with
    | reveal p ws => cases h
    | _ => exact opened_nil ops _ h

/-- A derivation, record objects and secret records: in rounds mode nothing of this is opened. -/
def Silent : Call → Prop
  | .clientFinished .. | .serverFinished .. => False
  | .encrypt _ _ _ _ sec | .decrypt _ _ _ _ sec => sec = true
  | _ => True

theorem shown_silent (fr : Bool) (op : Call) (h : Silent op) : shown true fr op = [] := by
  cases op <;> first | rfl | cases h; rfl | exact h.elim

theorem shownAll_silent : ∀ (ops : List Call) (fr : Bool), (∀ op ∈ ops, Silent op) → shownAll true fr ops = []
  | [], _, _ => rfl
  | op :: ops, fr, h => by
    rw [shownAll, shown_silent fr op (h op (List.mem_cons_self ..)), shownAll_silent ops _ fun o ho => h o (List.mem_cons_of_mem _ ho)]; rfl

/-- **C71, secret records.**  With the rounds of the PRF inside the computation, derivations and secret records of any lengths open nothing: the condition on opened values
falls away. -/
theorem C71_silent (hL : LibCost L) (q : Nat) (hq : bnNumBytes q < 2 ^ 56) (ops ops₂ : List Call) (hi : ∀ op ∈ ops, Silent op) (hi₂ : ∀ op ∈ ops₂, Silent op)
    (hs : ∀ op ∈ ops, Small op) (hs₂ : ∀ op ∈ ops₂, Small op) (hn : ops.length < 2 ^ 53) (hn₂ : ops₂.length < 2 ^ 53) (O O₂ : Oracle)
    (x x₂ : List Out × ConnG) (t t₂ : Sess) (e : conn L q true ops O {} = .ok (x, t)) (e₂ : conn L q true ops₂ O₂ {} = .ok (x₂, t₂)) :
    toBob (Circuit.opened [] t.program) = toBob (Circuit.opened [] t₂.program) := by
  rw [opened_nil _ [] ((C70_openings hL q hq true ops hs hn O x t e).trans (shownAll_silent _ _ hi)),
    opened_nil _ [] ((C70_openings hL q hq true ops₂ hs₂ hn₂ O₂ x₂ t₂ e₂).trans (shownAll_silent _ _ hi₂))]

/-! ### A case -/

/-- The prime of P-256. -/
def p256 : Nat := 2 ^ 256 - 2 ^ 224 + 2 ^ 192 + 2 ^ 96 - 1

/-- A derivation with a share of ALICE, the two record objects and a secret record in each direction. -/
def caseRest : List Call :=
  [.newAead (fun _ _ => .pub true) true, .newAead (fun _ _ => .pub false) false,
   .encrypt (fun _ _ => .pub true) true [0, 0, 0, 0, 0, 0, 0, 1] 2000 true, .decrypt (fun _ _ => .pub true) false [0, 0, 0, 0, 0, 0, 0, 2] 16000 true]

def caseCalls (a : Nat) : List Call :=
  .extendedMasterKey (fun _ => List.replicate 64 7) a 100 (List.replicate 32 4)
    :: .expansionKeys (fun _ => List.replicate 64 8) (List.replicate 32 4) (List.replicate 32 5) :: caseRest

def caseOff : List OffCall :=
  [.extendedMasterKey (fun _ _ => 5), .expansionKeys (fun _ _ => 6), .newAead (fun _ _ => .pub false) true, .newAead (fun _ _ => .pub false) false,
   .encrypt (fun _ _ => .pub false) true 2000 true, .decrypt (fun _ _ => .pub false) false 16000 true]

theorem caseMatch (a : Nat) : List.Forall₂ (Matches true) (caseCalls a) caseOff :=
  .cons (fun _ => rfl) (.cons (fun _ => rfl) (.cons rfl (.cons rfl (.cons ⟨rfl, rfl, rfl⟩ (.cons ⟨rfl, rfl, rfl⟩ .nil)))))

theorem caseSmall (a : Nat) : ∀ op ∈ caseCalls a, Small op := by
  intro op h
  simp only [caseCalls, caseRest, List.mem_cons, List.not_mem_nil, or_false] at h
  rcases h with rfl | rfl | rfl | rfl | rfl | rfl <;> first | trivial | (show _ < _; simp)

theorem caseSilent (a : Nat) : ∀ op ∈ caseCalls a, Silent op := by
  intro op h
  simp only [caseCalls, caseRest, List.mem_cons, List.not_mem_nil, or_false] at h
  rcases h with rfl | rfl | rfl | rfl | rfl | rfl <;> trivial

theorem caseRun (a : Nat) (h : a < p256) : ∃ x t, conn empLib p256 true (caseCalls a) plain {} = .ok (x, t) := by
  obtain ⟨x, t, _, run, _⟩ := Garbled.ref_connection Verif.Lemmas.Gate.empLib_sound p256 true (by decide +kernel) _
    (.extendedMasterKey (fun _ => List.replicate 64 7) a 100 (List.replicate 32 4)) ⟨fun _ => rfl, h, by decide +kernel, by simp, rfl⟩
    (fun _ => List.replicate 64 8) (fun _ => rfl) (List.replicate 32 4) (List.replicate 32 5) (by simp) caseRest ⟨rfl, rfl, rfl, rfl, trivial⟩ (by decide)
    Verif.Lemmas.Gate.valid_empty
  exact ⟨x, t, run plain (Verif.Lemmas.Gate.agree_plain _ _)⟩

theorem caseAnds (a : Nat) : (profile p256 true (caseCalls a)).ands = 6386405 := by
  show (profile p256 true (caseCalls 0)).ands = 6386405
  decide +kernel

theorem caseLength (a : Nat) : (caseCalls a).length < 2 ^ 53 := by
  rw [show (caseCalls a).length = 6 from rfl]; omega

theorem caseBob (a a₂ : Nat) : (caseCalls a).flatMap (shareBits p256) = (caseCalls a₂).flatMap (shareBits p256) := by
  simp only [caseCalls, List.flatMap_cons, shareBits]

theorem cut (x y c : Nat) (h : x * 2 ^ 128 ≤ y * 2 ^ 128 + (12 * (6386405 * 6386405) + 4 * (2 ^ 64 * 6386405)) * c) : x * 2 ^ 39 ≤ y * 2 ^ 39 + c := by
  refine Nat.le_of_mul_le_mul_right (c := 2 ^ 89) ?_ (by decide)
  rw [Nat.add_mul, Nat.mul_assoc x, Nat.mul_assoc y, ← Nat.pow_add, Nat.mul_comm c]
  exact h.trans (Nat.add_le_add_left (Nat.mul_le_mul_right _ (by decide)) _)

/-- Two shares of ALICE, a secret record of 2000 and one of 16000 bytes: with 2^64 more values of the function BOB says yes at most the part 2^-39 more often. -/
example (a a₂ : Nat) (ha : a < p256) (ha₂ : a₂ < p256) (O' : Oracle) (D : EvaluatorBound.View → Ask Bool) (hD : ∀ v P, ((D v).points P).length ≤ 2 ^ 64) :
    ∃ N t t₂ t', (∃ x, conn empLib p256 true (caseCalls a) plain {} = .ok (x, t)) ∧ (∃ x, conn empLib p256 true (caseCalls a₂) plain {} = .ok (x, t₂))
      ∧ (∃ y, ConnOff.run empLib { hs := { q := p256, roundsOpt := true } } caseOff O' {} = .ok (y, t'))
      ∧ Nat.card {r : EvaluatorBound.Draw N // (D (EvaluatorViewOnline.view (EvaluatorBound.envOf EvaluatorBound.caseEnv r) r.2.2 t'.program t.program)).run r.1 = true} * 2 ^ 39
        ≤ Nat.card {r : EvaluatorBound.Draw N // (D (EvaluatorViewOnline.view (EvaluatorBound.envOf EvaluatorBound.caseEnv r) r.2.2 t'.program t₂.program)).run r.1 = true} * 2 ^ 39
          + Nat.card (EvaluatorBound.Draw N) := by
  obtain ⟨x, t, e⟩ := caseRun a ha
  obtain ⟨x₂, t₂, e₂⟩ := caseRun a₂ ha₂
  have hq : bnNumBytes p256 < 2 ^ 56 := by decide +kernel
  obtain ⟨y, t', e', h⟩ := C71_online empLib_cost empLib_obl p256 hq true (caseCalls a) (caseCalls a₂) caseOff (caseMatch a) (caseMatch a₂) (caseSmall a)
    (caseSmall a₂) (caseLength a) (caseLength a₂) (caseBob a a₂) plain plain O' x x₂ t t₂ e e₂
    (C71_silent empLib_cost p256 hq _ _ (caseSilent a) (caseSilent a₂) (caseSmall a) (caseSmall a₂) (caseLength a) (caseLength a₂) _ _ _ _ _ _ e e₂)
    _ (caseAnds a) (by decide) EvaluatorBound.case_fair rfl D (2 ^ 64) hD
  exact ⟨_, t, t₂, t', ⟨x, e⟩, ⟨x₂, e₂⟩, ⟨y, e'⟩, cut _ _ _ h⟩

end Verif.Props.Profile
