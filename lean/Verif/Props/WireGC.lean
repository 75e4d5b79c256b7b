import Verif.Model.WireGC
import Verif.Props.Wire
import Verif.Props.Direct

/-!
# C93: programs of the ordinary backend

Whether a table is sent, and how many bits at an opening, each party decides by its own labels.  They decide alike.
-/

namespace Verif.Props.Wire

open Verif.Model Verif.Model.Wire Verif.Model.GC Verif.Spec
open Verif.Lemmas
open Verif.Props (NetInv Clean NoCoincidence net_step pub_isPublic)
open Verif.Spec.Circuit (Party Op)

theorem same_public {delta g e : Block} {v : Bool} (h : WRel delta g e v) : isPublic g = isPublic e := by
  rcases h with ⟨a, b⟩ | ⟨a, b, _⟩
  · rw [a, b]
  · rw [a, b]

theorem and_public (g : Gen) (i j : Nat) : genEv g (.and i j) = if isPublic (g.get i) || isPublic (g.get j) then [] else [.and] := by
  simp only [genEv, isPublic]
  by_cases h1 : isZero (g.get i) = true <;> by_cases h2 : isOne (g.get i) = true <;> by_cases h3 : isZero (g.get j) = true <;>
    by_cases h4 : isOne (g.get j) = true <;> simp [h1, h2, h3, h4]

theorem and_public' (e : Eva) (i j : Nat) : evaEv e (.and i j) = if isPublic (e.get i) || isPublic (e.get j) then [] else [.and] := by
  simp only [evaEv, isPublic]
  by_cases h1 : isZero (e.get i) = true <;> by_cases h2 : isOne (e.get i) = true <;> by_cases h3 : isZero (e.get j) = true <;>
    by_cases h4 : isOne (e.get j) = true <;> simp [h1, h2, h3, h4]

theorem same_hidden {n : Net} {w : List Bool} (h : NetInv n w) (ws : List Nat) :
    secretCount (ws.map n.gen.get) = secretCount (ws.map n.eva.get) := by
  induction ws with
  | nil => rfl
  | cons i ws ih =>
    simp only [secretCount, List.map_cons, List.filter_cons, same_public (h.rel i)] at ih ⊢
    split
    · simp only [List.length_cons, ih]
    · exact ih

theorem same_ev {n : Net} {w : List Bool} (h : NetInv n w) (op : Op) : genEv n.gen op = evaEv n.eva op := by
  cases op with
  | and i j => rw [and_public, and_public', same_public (h.rel i), same_public (h.rel j)]
  | reveal p ws => cases p <;> simp only [genEv, evaEv, openEv, same_hidden h ws, List.length_map]
  | _ => rfl

theorem same_evs (E : Env) (ops : List Op) : ∀ (n : Net) (w : List Bool), NetInv n w → NoCoincidence E n ops →
    genEvs E n ops = evaEvs E n ops := by
  induction ops with
  | nil => intro n w _ _; rfl
  | cons op ops ih =>
    intro n w h hc
    obtain ⟨o, n1, e1, h1, _⟩ := net_step E n w op h hc.1
    simp only [genEvs, evaEvs, same_ev h op, e1]
    rw [ih n1 _ h1 (hc.2 o n1 e1)]

/-- Any program of gates, inputs and openings in the ordinary backend, any circuit, any inputs, any batch size: each party goes by
its own labels, and the run always comes to its end. -/
theorem C93_program (E : Env) (d : Block) (ops : List Op) (hc : NoCoincidence E (Direct.start d) ops) (batch top : Nat) :
    AlwaysEnds (Step true) Good (start (aliceAll (.direct batch) top [.gates (genEvs E (Direct.start d) ops)]),
      start (bobAll (.direct batch) top [.gates (evaEvs E (Direct.start d) ops)])) := by
  rw [same_evs E ops _ [] (Direct.start_inv d) hc]
  exact C93_session _ _ _

/-- There are environments in which the hypothesis holds for every program. -/
example : ∃ E : Env, ∀ (ops : List Op) (batch top : Nat),
    AlwaysEnds (Step true) Good (start (aliceAll (.direct batch) top [.gates (genEvs E (Direct.start 0) ops)]),
      start (bobAll (.direct batch) top [.gates (evaEvs E (Direct.start 0) ops)])) := by
  obtain ⟨E, _, _, h⟩ := Direct.C17_hypothesis_satisfiable
  exact ⟨E, fun ops batch top => C93_program E 0 ops (h ops) batch top⟩

/-- Bytes of messages. -/
def msgBytes : Msg → Nat
  | .blk _ => 16
  | .bit _ => 1
  | .bits b => b.length
  | .dig _ => 32

/-- Bytes sent in statements. -/
def sentBytes : List Act → Nat
  | [] => 0
  | .send _ _ n :: r => n + sentBytes r
  | _ :: r => sentBytes r

/-- The statements of the garbler in a gate send as many bytes as the gate of `Verif.Model.GC` does. -/
theorem C93_gate_bytes (E : Env) (g : Gen) (i j batch top : Nat) :
    sentBytes (gen (.direct batch) top (genEv g (.and i j))).1 = ((genAnd E g (g.get i) (g.get j)).2.2.map msgBytes).sum := by
  simp only [genEv, genAnd]
  split
  · rfl
  · split
    · rfl
    · split <;> rfl

theorem sent_bits (k : Nat) (r : List Act) : sentBytes (sendN .io "lsb" k 1 ++ r) = k + sentBytes r := by
  induction k with
  | zero => simp [sendN]
  | succ k ih =>
    show 1 + sentBytes (sendN .io "lsb" k 1 ++ r) = _
    rw [ih]; omega

/-- The same for openings. -/
theorem C93_opening_bytes (g : Gen) (p : Party) (ws : List Nat) (batch top : Nat) :
    sentBytes (gen (.direct batch) top (genEv g (.reveal p ws))).1 = ((genRevealSend p (ws.map g.get)).map msgBytes).sum := by
  have hs : ∀ ls : List Block, (((ls.filter fun l => !isPublic l).map fun l => Msg.bit (lsb l)).map msgBytes).sum = secretCount ls := by
    intro ls
    simp only [secretCount]
    induction ls.filter fun l => !isPublic l with
    | nil => rfl
    | cons x xs ih =>
      simp only [List.map_cons, List.sum_cons, List.length_cons] at ih ⊢
      rw [ih]
      simp only [msgBytes]
      omega
  have hr : ∀ k, sentBytes (recvN .io "lsb" k 1 ++ []) = 0 := by
    intro k
    induction k with
    | zero => rfl
    | succ k ih => exact ih
  cases p with
  | alice => simp only [genEv, openEv, gen, genDirect, genRevealSend, if_true, hr]; rfl
  | bob =>
    simp only [genEv, openEv, gen, genDirect, genRevealSend, reduceCtorEq, if_false, hs, sent_bits]
    rfl
  | pub =>
    simp only [genEv, openEv, gen, genDirect, genRevealSend, reduceCtorEq, if_false, hs, List.append_assoc, sent_bits]
    rfl

/-- If a label happens to be the block of a constant for one party only, the parties disagree: here ALICE sends a table that BOB
never reads. -/
theorem C93_coincidence : ∃ (E : Env) (d : Block) (ops : List Op), ∀ batch top,
    CanHang (Step true) Good (start (aliceAll (.direct batch) top [.gates (genEvs E (Direct.start d) ops)]),
      start (bobAll (.direct batch) top [.gates (evaEvs E (Direct.start d) ops)])) := by
  let E : Env :=
    { perm := id, sigma := id, hash := fun _ => 0, prg := fun _ => 0, cotK := fun _ => 0, cotR := fun _ => false
      fixPoint := 2, const0 := 0, const1 := 0 }
  refine ⟨E, 0, [.inA true, .inA true, .and 0 1], fun batch top => ?_⟩
  have eA : genEvs E (Direct.start 0) [.inA true, .inA true, .and 0 1] = [.feedA 1, .feedA 1, .and] := by decide
  have eB : evaEvs E (Direct.start 0) [.inA true, .inA true, .and 0 1] = [.feedA 1, .feedA 1] := by decide
  rw [eA, eB]
  refine ⟨_, _, .succ (.left rfl) (.succ (.left rfl) (.succ (.meet rfl rfl rfl rfl) (.zero _))), ?_, ?_⟩
  · rintro ⟨_, _, _, h⟩
    cases h .io
  · intro u hu
    cases hu with
    | left h => cases h
    | right h => cases h
    | meet hs => cases hs

end Verif.Props.Wire
