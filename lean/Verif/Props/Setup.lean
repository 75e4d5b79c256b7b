import Verif.Model.Setup
import Verif.Props.GarblerView
import Verif.Props.Cot

/-!
C68: the constructors leave the two parties in a state in which they fit together.  Each party has only what its own constructors made of its own
draws and of the messages it received; a program run from there opens the plain values of the circuit.
-/

namespace Verif.Props.Setup
open Verif.Model Verif.Model.GC Verif.Model.Setup Verif.Lemmas
open Verif.Spec.Circuit (Party Op)
open Verif.Spec
open Verif.Props (NoCoincidence SameShape RevealOk)

/-! ### Bits and blocks -/

theorem foldl_bits (b : Block) : ∀ (n : Nat) (k : Nat),
    ((List.range n).foldl (fun acc j => if b.getLsbD j then acc ^^^ OLE.base j else acc) (0#128)).getLsbD k
      = (decide (k < n) && b.getLsbD k) := by
  intro n
  induction n with
  | zero => intro k; simp
  | succ n ih =>
    intro k
    rw [List.range_succ, List.foldl_append]
    simp only [List.foldl_cons, List.foldl_nil]
    have hb : (OLE.base n).getLsbD k = (decide (n = k) && decide (k < 128)) := by
      simp only [OLE.base, BitVec.getLsbD_twoPow]
      by_cases h : n = k
      · subst h; simp
      · simp [h]
    by_cases h : n = k
    · subst h
      cases hk : b.getLsbD n with
      | false => simp [ih, hk]
      | true =>
        have : n < 128 := by
          by_contra hc
          rw [BitVec.getLsbD_of_ge _ _ (by omega)] at hk; cases hk
        rw [if_pos rfl, BitVec.getLsbD_xor, ih, hb]
        simp [this]
    · have h2 : (decide (k < n + 1)) = decide (k < n) := by
        by_cases hk : k < n
        · simp [hk]; omega
        · simp [hk]; omega
      rw [h2]
      split
      · simp [BitVec.getLsbD_xor, ih, hb, h]
      · exact ih k

/-- `bool_to_block` undoes `block_to_bool`. -/
theorem bits_block (b : Block) : VOPE.boolToBlock (blockToBool b) = b := by
  apply BitVec.eq_of_getLsbD_eq
  intro k hk
  rw [VOPE.boolToBlock, show (fun acc j => if blockToBool b j = true then acc ^^^ OLE.base j else acc)
    = (fun acc j => if b.getLsbD j then acc ^^^ OLE.base j else acc) from rfl, foldl_bits]
  simp [hk]

theorem delta_ne (a : Block) : setDelta a ≠ zeroB := by
  intro h
  have := C16_delta a
  rw [h] at this
  exact absurd this (by decide)

/-! ### The ordinary backend -/

/-- **C68.**  After `setup_backend` both constructors have consumed all messages of the setup, the offset has its least significant bit set, the OT object
of the garbler has exactly this offset and that of the evaluator zero, so that the test which later decides who sends gives opposite answers; fix point,
shared seed and the positions in the buffers of correlated OTs are the same. -/
theorem C68_backend (P : Prim) (a seed : Block) : ∃ g e, backend P a seed none none = .ok (g, e, [])
    ∧ lsb g.gc.delta = true ∧ g.ot.delta = some g.gc.delta ∧ e.ot.delta = some zeroB
    ∧ g.ot.sends = .ok true ∧ e.ot.sends = .ok false
    ∧ g.fixPoint = e.fixPoint ∧ g.shared = seed ∧ e.shared = seed
    ∧ g.gc.gid = e.gc.gid ∧ g.cot.batch = e.cot.batch ∧ g.cot.top = e.cot.top ∧ g.cot.pos = e.cot.pos
    ∧ (∀ bs : List (List Bool), ∃ fs n', Cot.Net.run P.cotK P.cotR g.gc.delta ⟨g.cot, e.cot⟩ bs = .ok (fs, n')
        ∧ List.Forall₂ (FedOk g.gc.delta P.cotK) fs bs) := by
  refine ⟨_, _, rfl, C16_delta a, ?_, rfl, ?_, rfl, rfl, rfl, rfl, rfl, rfl, rfl, rfl, ?_⟩
  · simp only [Ot.setupSend, bits_block]
  · simp only [Ot.sends, Ot.setupSend, bits_block]
    exact congrArg Except.ok (bne_iff_ne.mpr (delta_ne a))
  · intro bs
    obtain ⟨fs, n', h1, h2, _⟩ := C20_feed_partial P.cotK P.cotR (setDelta a) batch bs
    exact ⟨fs, n', h1, h2⟩

theorem eva_cotK (E : Env) (f : Nat → Block) (cot : Nat → Block) (r : Nat → Bool) (e : Eva) (op : Op) (q : List GC.Msg) :
    e.step { E with cotK := f } cot r op q = e.step E cot r op q := by
  cases op <;> rfl

theorem send_delta (E : Env) (g : Gen) (op : Op) : (g.send E op).1.delta = g.delta := by
  cases op with
  | and i j =>
    simp only [Gen.send, genAnd, Gen.push]
    split
    · rfl
    · split
      · rfl
      · split <;> rfl
  | _ => rfl

theorem recv_delta {E : Env} {g g' : Gen} {op : Op} {q q' : List GC.Msg} {o : Option (Party × List Bool)}
    (h : g.recv E op q = .ok (o, g', q')) : g'.delta = g.delta := by
  cases op with
  | inB b =>
    simp only [Gen.recv, bind, Except.bind] at h
    split at h
    · cases h
    · cases h; rfl
  | reveal p ws =>
    simp only [Gen.recv, bind, Except.bind] at h
    split at h
    · cases h
    · split at h
      · cases h
      · cases h; rfl
  | _ => cases h; rfl

theorem join_eq : Setup.join = GarblerView.join := by
  funext a b
  cases a <;> cases b <;> rfl

/-- Two parties whose environments agree run like the joint model. -/
theorem netRun_eq (E : Env) (f : Nat → Block) (cot : Nat → Block) (D : Block) (hc : cot = cotM E D) : ∀ (ops : List Op) (n : Net), n.gen.delta = D →
    netRun E { E with cotK := f } cot n ops = n.run E ops := by
  intro ops
  induction ops with
  | nil => intro n _; rfl
  | cons op ops ih =>
    intro n hD
    simp only [netRun, Net.run, GarblerView.step_parties, bind, Except.bind, eva_cotK, hc, hD, join_eq]
    cases h1 : n.eva.step E (cotM E D) E.cotR op (n.toEva ++ (n.gen.send E op).2) with
    | error x => rfl
    | ok x =>
      simp only
      cases h2 : (n.gen.send E op).1.recv E op (n.toGen ++ x.2.2.2) with
      | error y => rfl
      | ok y =>
        simp only
        rw [← hc, ih _ (by rw [recv_delta h2, send_delta, hD])]

/-- The environment of a run after `setup_backend`. -/
def agreed (P : Prim) (seed : Block) : Env :=
  { perm := P.perm, sigma := P.sigma, hash := P.hash, prg := P.prg seed, cotK := P.cotK, cotR := P.cotR, fixPoint := P.prg P.fixKey 0, const0 := 0, const1 := 0 }

theorem backendRun_eq (P : Prim) (a seed : Block) (ops : List Op) :
    backendRun P a seed none none ops = Net.run (agreed P seed) { gen := { delta := setDelta a }, eva := {} } ops := by
  rw [← netRun_eq (agreed P seed) (fun _ => 0) (cotBlock P (setDelta a)) (setDelta a) rfl ops _ rfl]
  simp only [backendRun, backend, setupGen, setupEva, Ot.setupSend, bits_block, bind, Except.bind]
  rfl

/-- **C68, runs.**  A program run after `setup_backend`, by two parties each of which uses its own fix point, shared seed and OT, opens the plain values of the
circuit to the parties entitled to them and consumes all messages, unless labels coincide by accident. -/
theorem C68_run (P : Prim) (a seed : Block) (ops : List Op)
    (hc : NoCoincidence (agreed P seed) { gen := { delta := setDelta a }, eva := {} } ops) :
    ∃ os n', backendRun P a seed none none ops = .ok (os, n') ∧ List.Forall₂ RevealOk os (Circuit.opened [] ops) ∧ n'.toEva = [] ∧ n'.toGen = [] := by
  obtain ⟨os, n', h1, h2, h3, h4, _⟩ := C17_execution (agreed P seed) a ops hc
  exact ⟨os, n', by rw [backendRun_eq, h1], h2, h3, h4⟩

/-! ### An OT object from elsewhere -/

/-- **C68, OT objects from elsewhere.**  With the optional argument the constructors take the OT object as it is.  An input bit of BOB for which the buffered
choice is one gets the right pair of labels exactly if the offset in the garbler's object is that of the garbled circuit. -/
theorem C68_given (P : Prim) (a seed : Block) (D : Block) (eOt : Ot) (b : Bool) (h1 : P.cotR 0 = true) :
    ∃ os n, backendRun P a seed (some ⟨some D⟩) (some eOt) [.inB b] = .ok (os, n)
      ∧ (n.eva.get 0 = n.gen.get 0 ^^^ sel b (setDelta a) ↔ D = setDelta a) := by
  refine ⟨_, _, rfl, ?_⟩
  show (P.cotK 0 ^^^ sel (P.cotR 0) D = (if (P.cotR 0 != b) = true then P.cotK 0 ^^^ setDelta a else P.cotK 0) ^^^ sel b (setDelta a)) ↔ _
  rw [h1]
  have key : ∀ k x y : Block, k ^^^ x = k ^^^ y ↔ x = y := by
    intro k x y
    constructor
    · intro e
      have := congrArg (k ^^^ ·) e
      simpa only [← BitVec.xor_assoc, BitVec.xor_self, BitVec.zero_xor] using this
    · rintro rfl; rfl
  cases b
  · simp only [sel, Bool.bne_false, if_true, Bool.false_eq_true, if_false]
    rw [show (P.cotK 0 ^^^ setDelta a) ^^^ (0 : Block) = P.cotK 0 ^^^ setDelta a from BitVec.xor_zero]
    exact key (P.cotK 0) D (setDelta a)
  · simp only [sel, bne_self_eq_false, if_true, Bool.false_eq_true, if_false]
    exact key (P.cotK 0) D (setDelta a)

/-- **C68, OT objects from elsewhere.**  The constructor of the evaluator clears `Delta` only in an OT object it makes itself: with one from elsewhere the test
who sends is undefined if its `Delta` was never assigned, and takes the evaluator for the sender if it is not zero. -/
theorem C68_given_role (P : Prim) (a seed : Block) (gOt eOt : Ot) : ∃ g e, backend P a seed (some gOt) (some eOt) = .ok (g, e, [])
    ∧ (eOt.delta = none → ∃ m, e.ot.sends = .error (.ub m)) ∧ (∀ x, eOt.delta = some x → x ≠ zeroB → e.ot.sends = .ok true) := by
  refine ⟨_, _, rfl, ?_, ?_⟩
  · intro h; exact ⟨"uninitialised Delta", by simp only [Ot.sends, h]⟩
  · intro x h hx
    simp only [Ot.sends, h]
    exact congrArg Except.ok (bne_iff_ne.mpr hx)

/-! ### The offline/online backend -/

theorem on_eva_env (E : Env) (f g : Nat → Block) (x : Block) (ot : Block × Block) (e : OnEva) (op : Op) (q : List GC.Msg) :
    e.step { E with prg := f, cotK := g, fixPoint := x } ot op q = e.step E ot op q := by
  cases op <;> rfl

theorem onRun_eq (E : Env) (f g : Nat → Block) (x : Block) : ∀ (ops : List Op) (n : OnNet),
    onRun E { E with prg := f, cotK := g, fixPoint := x } n ops = n.run E ops := by
  intro ops
  induction ops with
  | nil => intro n; rfl
  | cons op ops ih =>
    intro n
    simp only [onRun, OnNet.run, GarblerView.step_parties_on, bind, Except.bind, on_eva_env, join_eq]
    cases h0 : n.gen.send E op with
    | error x => rfl
    | ok x0 =>
      simp only
      cases h1 : n.eva.step E (E.prg n.gen.prgPos, E.prg n.gen.prgPos ^^^ n.gen.delta) op (n.toEva ++ x0.2) with
      | error x => rfl
      | ok x =>
        simp only
        cases h2 : x0.1.recv E op (n.toGen ++ x.2.2.2) with
        | error y => rfl
        | ok y =>
          simp only
          rw [ih]

/-- The environment of both phases. -/
def agreedOnline (P : Prim) (seed : Block) : Env :=
  { perm := P.perm, sigma := P.sigma, hash := P.hash, prg := P.prg seed, cotK := P.cotK, cotR := P.cotR, fixPoint := 0,
    const0 := P.prg P.fixKey 0, const1 := P.prg P.fixKey 1 }

theorem genEnv_eq (P : Prim) (d seed : Block) : genEnv P (P.prg P.fixKey 0, P.prg P.fixKey 1 ^^^ d) d seed = agreedOnline P seed := by
  simp only [genEnv, agreedOnline, BitVec.xor_assoc, BitVec.xor_self, BitVec.xor_zero]

/-- **C68, offline/online.**  After the offline phase, `setup_online_backend` and `sync_offline_online`: the garbler has the offset, the labels and the
seed of the offline phase (not those its online constructors drew), the evaluator the tables and masks; the OT object of the garbler keeps the offset drawn online,
which is not zero, that of the evaluator has zero, so that the test who sends gives opposite answers; the constants of the two are the two labels of the same bits. -/
theorem C68_online (P : Prim) (a seed a' own : Block) (ops : List Op) :
    ∃ f g e, OffNet.run (agreedOnline P seed) { gen := { delta := setDelta a } } ops = .ok f
      ∧ online P a seed a' own ops = .ok (g, e, [])
      ∧ g.gc.delta = setDelta a ∧ g.seed = seed ∧ g.gc.prgPos = 0 ∧ g.gc.outLabels = f.gen.outLabels ∧ e.gc.gc = f.eva.gc ∧ e.gc.pubValues = f.eva.pubValues
      ∧ g.ot.delta = some (setDelta a') ∧ e.ot.delta = some zeroB ∧ g.ot.sends = .ok true ∧ e.ot.sends = .ok false
      ∧ g.const.1 = e.const.1 ∧ g.const.2 = e.const.2 ^^^ g.gc.delta := by
  obtain ⟨f, h1, _, _, hd⟩ := off_run (agreedOnline P seed) ops { gen := { delta := setDelta a } } rfl
  have hd' : f.gen.delta = setDelta a := hd
  refine ⟨f, syncGen P f.gen seed (setupOnGen P a' own).1,
    syncEva f.eva { gc := { gc := [], pubValues := [] }, const := (P.prg P.fixKey 0, P.prg P.fixKey 1), ot := { delta := some zeroB } }, h1, ?_, ?_⟩
  · simp only [online, setupOffGen, genEnv_eq, h1, setupOnEva, setupOnGen, recvBase, bind, Except.bind]
  · refine ⟨?_, rfl, rfl, rfl, rfl, rfl, ?_, rfl, ?_, rfl, rfl, ?_⟩
    · show setDelta f.gen.delta = setDelta a
      rw [hd', setDelta_idem]
    · simp only [syncGen, setupOnGen, Ot.setupSend, bits_block]
    · simp only [syncGen, setupOnGen, Ot.sends, Ot.setupSend, bits_block]
      exact congrArg Except.ok (bne_iff_ne.mpr (delta_ne a'))
    · rfl

/-- **C68, offline/online runs.**  For every program of the offline phase and every program of the online phase that differs from it only in the values of the inputs,
and whatever the constructors draw: the online phase, run by two parties each with its own constants, generators and OT, opens the plain values of the online program. -/
theorem C68_online_run (P : Prim) (a seed a' own : Block) (ops ops' : List Op) (hs : List.Forall₂ SameShape ops ops') :
    ∃ os n', onlineRun P a seed a' own ops ops' = .ok (os, n') ∧ List.Forall₂ RevealOk os (Circuit.opened [] ops') ∧ n'.toEva = [] ∧ n'.toGen = [] := by
  obtain ⟨f, os, n', h1, h2, h3, h4, h5, _⟩ := C18_offline_online (agreedOnline P seed) a ops ops' hs
  refine ⟨os, n', ?_, h3, h4, h5⟩
  rw [← h2, ← onRun_eq (agreedOnline P seed) (fun _ => 0) (fun _ => 0) 0]
  simp only [onlineRun, online, setupOffGen, genEnv_eq, h1, setupOnEva, setupOnGen, recvBase, bind, Except.bind, syncGen, syncEva]
  rfl

/-! ### Examples -/

/-- Generators that depend on the seed and the position. -/
def exP : Prim where
  perm := fun x => x * 0x9e3779b97f4a7c15f39cc0605cedc835#128 + 0x1234567#128
  sigma := fun x => x.rotateLeft 1
  hash := fun l => (l.foldl (fun a b => a ^^^ b) 0).toNat
  prg := fun k i => k * 3 + BitVec.ofNat 128 (i + 2) * 0x3c6ef372fe94f82be73980c0b9db9068#128
  fixKey := 5
  cotK := fun i => BitVec.ofNat 128 (i + 7) * 0xdaa66d2c7ddf743f1f4d1b9f3c4f5a11#128
  cotR := fun i => i % 2 == 0

def exOps : List Op := [.inA true, .inB true, .inB false, .and 0 1, .xor 3 2, .not 4, .reveal .pub [3, 4], .reveal .alice [5], .reveal .bob [3]]

/-- The hypothesis of `C68_run` is met, and something is opened. -/
example : NoCoincidence (agreed exP 99) { gen := { delta := setDelta 77 }, eva := {} } exOps := by decide +kernel

example : (match backendRun exP 77 99 none none exOps with
    | .ok (os, _) => os
    | .error _ => []) = [(.pub, [true, true], [true, true]), (.alice, [false], [false]), (.bob, [false], [true])] := by decide +kernel

example : exP.cotR 0 = true := rfl

/-- An online program with other inputs than the offline one, other draws. -/
example : List.Forall₂ SameShape [.inA false, .inB false, .and 0 1, .reveal .pub [2]] [.inA true, .inB true, .and 0 1, .reveal .pub [2]] := by
  repeat' constructor

example : (match onlineRun exP 77 99 1000 2000 [.inA false, .inB false, .and 0 1, .reveal .pub [2]] [.inA true, .inB true, .and 0 1, .reveal .pub [2]] with
    | .ok (os, _) => os
    | .error _ => []) = [(.pub, [true], [true])] := by decide +kernel

/-- **C68**.  BOB's constructors end exactly on what ALICE's send: the base transfers if no object is given, one extension by 16384, and
the seed, which BOB keeps. -/
theorem C68_accepts (P : Prim) (o : Option Ot) (q rest : List Setup.Msg) :
    (∃ e, setupEva P o q = .ok (e, rest)) ↔
      ∃ seed, q = (if o.isNone then [Setup.Msg.base] else []) ++ [.extend 16384, .blk seed] ++ rest := by
  have tail : ∀ (ot : Ot) (q : List Setup.Msg), (∃ e : Evaluator, (do
        let q ← recvExtend batch q
        let (seed, q) ← recvBlock q
        .ok (({ gc := {}, fixPoint := P.prg P.fixKey 0, ot := ot, cot := Cot.Eva.init P.cotR batch, shared := seed } : Evaluator), q) : Res _)
        = .ok (e, rest)) ↔ ∃ seed, q = [.extend 16384, .blk seed] ++ rest := by
    intro ot q
    constructor
    · rintro ⟨e, h⟩
      match q with
      | [] => cases h
      | .base :: _ => cases h
      | .blk _ :: _ => cases h
      | [.extend m] =>
        simp only [recvExtend, bind, Except.bind] at h
        split at h
        · cases h
        · rename_i hq
          split at hq
          · cases hq; cases h
          · cases hq
      | .extend m :: x :: q =>
        simp only [recvExtend, bind, Except.bind] at h
        split at h
        · cases h
        · rename_i hq
          split at hq
          · rename_i hm
            cases hq
            cases x with
            | blk b => cases h; exact ⟨b, by rw [hm]; rfl⟩
            | base => cases h
            | extend _ => cases h
          · cases hq
    · rintro ⟨seed, rfl⟩
      exact ⟨_, rfl⟩
  cases o with
  | some ot => exact tail ot q
  | none =>
    match q with
    | [] =>
      constructor
      · rintro ⟨_, h⟩; cases h
      · rintro ⟨_, h⟩; cases h
    | .blk _ :: _ =>
      constructor
      · rintro ⟨_, h⟩; cases h
      · rintro ⟨_, h⟩; cases h
    | .extend _ :: _ =>
      constructor
      · rintro ⟨_, h⟩; cases h
      · rintro ⟨_, h⟩; cases h
    | .base :: q =>
      refine (tail { delta := some zeroB } q).trans ⟨fun ⟨s, h⟩ => ⟨s, by rw [h]; rfl⟩, fun ⟨s, h⟩ => ⟨s, ?_⟩⟩
      exact (List.cons.inj h).2

example : ∃ e, setupEva exP none [.base, .extend 16384, .blk 5, .blk 6] = .ok (e, [.blk 6]) :=
  (C68_accepts _ _ _ _).2 ⟨5, rfl⟩
example : ¬ ∃ e, setupEva exP none [.base, .extend 16385, .blk 5] = .ok (e, []) := by
  rw [C68_accepts]
  rintro ⟨s, h⟩
  simp at h

end Verif.Props.Setup
