import Verif.Spec.Known
import Verif.Props.WireGC

/-!
# C96: the private inputs cannot be seen from which messages are sent and how long they are

In the ordinary backend a gate sends a table unless one of its labels is the block of a constant, and openings send bits for the other
labels only.  So what is on the wire could depend on the values.  It does not: it is fixed by the program without the private inputs.
-/

namespace Verif.Props.TrafficShape

open Verif.Model Verif.Model.Wire Verif.Model.GC Verif.Spec
open Verif.Lemmas
open Verif.Props (NetInv Clean NoCoincidence net_step pub_isPublic)
open Verif.Props.Wire (same_evs and_public sentBytes)
open Verif.Spec.Circuit (Party Op known knownAnd knownXor newKnown nextKnown Traffic trafficOf traffic blank)

/-- The labels of the garbler are those of constants exactly where a constant is known. -/
def Fits (g : Block) : Option Bool → Prop
  | some b => g = publicLabel b
  | none => isPublic g = false

theorem fits_public {g : Block} {x : Option Bool} (h : Fits g x) : isPublic g = x.isSome := by
  cases x with
  | none => exact h
  | some b => cases h; exact pub_isPublic b

theorem fits_xor (E : Env) (delta : Block) {a b : Block} {x y : Option Bool} (hx : Fits a x) (hy : Fits b y)
    (hc : (isPublic a && isPublic b) = false → isPublic (genXor E delta a b) = false) :
    Fits (genXor E delta a b) (knownXor x y) := by
  cases x with
  | none => exact hc (by rw [fits_public hx]; rfl)
  | some u =>
    cases y with
    | none => exact hc (by rw [fits_public hy]; simp)
    | some v =>
      cases hx; cases hy
      cases u <;> cases v <;> simp [Fits, knownXor, genXor, genNot, publicLabel]

theorem fits_not (delta : Block) {a : Block} {x : Option Bool} (hx : Fits a x)
    (hc : isPublic a = false → isPublic (genNot delta a) = false) : Fits (genNot delta a) (x.map (!·)) := by
  cases x with
  | none => exact hc hx
  | some u => cases hx; cases u <;> simp [Fits, genNot, publicLabel]

theorem fits_and (E : Env) (g : Gen) {a b : Block} {x y : Option Bool} (hx : Fits a x) (hy : Fits b y)
    (hc : isPublic a = false → isPublic b = false →
      isPublic (garble E a (a ^^^ g.delta) b (b ^^^ g.delta) g.delta g.gid).1 = false) :
    Fits (genAnd E g a b).1 (knownAnd x y) := by
  have pf : ∀ {c : Block}, isPublic c = false → isZero c = false ∧ isOne c = false := by
    intro c h; simpa [isPublic] using h
  cases x with
  | none =>
    obtain ⟨a1, a2⟩ := pf hx
    cases y with
    | none =>
      obtain ⟨b1, b2⟩ := pf hy
      simpa [Fits, knownAnd, genAnd, a1, a2, b1, b2] using hc hx hy
    | some v =>
      cases hy
      cases v
      · simp [Fits, knownAnd, genAnd, publicLabel]
      · simpa [Fits, knownAnd, genAnd, publicLabel, a1, a2] using hx
  | some u =>
    cases hx
    cases u
    · cases y with
      | none => simp [Fits, knownAnd, genAnd, publicLabel]
      | some v => simp [Fits, knownAnd, genAnd, publicLabel]
    · cases y with
      | none =>
        obtain ⟨b1, b2⟩ := pf hy
        simpa [Fits, knownAnd, genAnd, publicLabel, b1, b2] using hy
      | some v =>
        cases hy
        cases v <;> simp [Fits, knownAnd, genAnd, publicLabel]

structure Inv (n : Net) (k : List (Option Bool)) : Prop where
  len : n.gen.wires.length = k.length
  fits : ∀ i, Fits (n.gen.get i) (known k i)

theorem Inv.push {n m : Net} {k : List (Option Bool)} (h : Inv n k) {l : Block} {x : Option Bool}
    (hm : m.gen.wires = n.gen.wires ++ [l]) (hl : Fits l x) : Inv m (k ++ [x]) := by
  refine ⟨by simp [hm, h.len], fun i => ?_⟩
  have hi := h.fits i
  simp only [Gen.get, known, hm, List.getD_eq_getElem?_getD] at hi ⊢
  by_cases h1 : i < k.length
  · rw [List.getElem?_append_left (by rw [h.len]; exact h1), List.getElem?_append_left h1]; exact hi
  · by_cases h2 : i = k.length
    · subst h2
      rw [List.getElem?_append_right (by rw [h.len]), List.getElem?_append_right (Nat.le_refl _), h.len]
      simpa using hl
    · rw [List.getElem?_eq_none (by simp [h.len]; omega), List.getElem?_eq_none (by simp; omega)]
      rfl

theorem inv_step (E : Env) {n m : Net} {w : List Bool} {k : List (Option Bool)} {op : Op} {o} (hn : NetInv n w) (h : Inv n k)
    (hc : Clean E n op) (hs : n.step E op = .ok (o, m)) : Inv m (nextKnown k op) := by
  cases op with
  | pub b => cases hs; exact h.push rfl rfl
  | inA b =>
    cases hs
    refine h.push rfl ?_
    have := hc.1
    show isPublic _ = false
    cases b <;> simpa [sel] using this
  | inB b =>
    simp only [Net.step, hn.toGen, List.nil_append, recvBit, bind, Except.bind] at hs
    cases hs
    refine h.push rfl ?_
    have := hc.1
    show isPublic _ = false
    rw [hn.cot]
    rw [show (if (E.cotR n.gen.cotPos != b) = true then E.cotK n.gen.cotPos ^^^ n.gen.delta else E.cotK n.gen.cotPos)
      = E.cotK n.gen.cotPos ^^^ sel (E.cotR n.gen.cotPos != b) n.gen.delta from sel_if ..]
    exact this
  | xor i j => cases hs; exact h.push rfl (fits_xor E _ (h.fits i) (h.fits j) fun hp => (hc.1 hp).1)
  | not i => cases hs; exact h.push rfl (fits_not _ (h.fits i) hc)
  | and i j =>
    simp only [Net.step, bind, Except.bind] at hs
    split at hs
    · cases hs
    · cases hs
      refine h.push (l := (genAnd E n.gen (n.gen.get i) (n.gen.get j)).1) ?_
        (fits_and E n.gen (h.fits i) (h.fits j) fun p q => (hc p q).1)
      simp only [Gen.push, genAnd]
      split
      · rfl
      · split
        · rfl
        · split <;> rfl
  | reveal p ws =>
    obtain ⟨o', n', e, h', _⟩ := net_step E n w (.reveal p ws) hn hc
    simp only [Net.step, bind, Except.bind] at hs
    split at hs
    · cases hs
    · split at hs
      · cases hs
      · split at hs
        · cases hs
        · cases hs
          exact ⟨by simpa [nextKnown, newKnown] using h.len, by simpa [nextKnown, newKnown] using h.fits⟩

/-- The messages of the backend. -/
def toEv : Traffic → Ev
  | .feedA => .feedA 1
  | .feedB => .feedB 1
  | .table => .and
  | .opening .pub n k => .openP n k
  | .opening .alice n k => .openA n k
  | .opening .bob n k => .openB n k

theorem ev_of {n : Net} {k : List (Option Bool)} (h : Inv n k) (op : Op) : genEv n.gen op = (trafficOf k op).map toEv := by
  have hp : ∀ i, isPublic (n.gen.get i) = (known k i).isSome := fun i => fits_public (h.fits i)
  cases op with
  | and i j =>
    rw [and_public, hp, hp]
    cases hi : known k i <;> cases hj : known k j <;> simp [trafficOf, hi, hj, toEv]
  | reveal p ws =>
    have : secretCount (ws.map n.gen.get) = (ws.filter fun i => known k i = none).length := by
      simp only [secretCount]
      induction ws with
      | nil => rfl
      | cons i ws ih =>
        simp only [List.map_cons, List.filter_cons, hp i]
        cases hi : known k i <;> simp [ih]
    cases p <;> simp [genEv, openEv, trafficOf, toEv, this]
  | _ => rfl

theorem evs_of (E : Env) (ops : List Op) : ∀ (n : Net) (w : List Bool) (k : List (Option Bool)), NetInv n w → Inv n k →
    NoCoincidence E n ops → genEvs E n ops = (traffic k ops).map toEv := by
  induction ops with
  | nil => intros; rfl
  | cons op ops ih =>
    intro n w k hn h hc
    obtain ⟨o, n1, e1, h1, _⟩ := net_step E n w op hn hc.1
    simp only [genEvs, e1, traffic, List.map_append, ev_of h op]
    rw [ih n1 _ _ h1 (inv_step E hn h hc.1 e1) (hc.2 o n1 e1)]

theorem start_fits (d : Block) : Inv (Direct.start d) [] := ⟨rfl, fun _ => by simp [Direct.start, Gen.get, known, Fits, publicLabel]⟩

/-- Any program: what each party exchanges with the other, by its own labels, is what can be read off the program without the private
inputs. -/
theorem C96_traffic (E : Env) (d : Block) (ops : List Op) (hc : NoCoincidence E (Direct.start d) ops) :
    genEvs E (Direct.start d) ops = (traffic [] ops).map toEv ∧ evaEvs E (Direct.start d) ops = (traffic [] ops).map toEv := by
  have h := evs_of E ops _ [] [] (Direct.start_inv d) (start_fits d) hc
  exact ⟨h, by rw [← same_evs E ops _ [] (Direct.start_inv d) hc]; exact h⟩

theorem known_blank (k : List (Option Bool)) (op : Op) : nextKnown k (blank op) = nextKnown k op := by cases op <;> rfl

theorem traffic_blank (ops : List Op) : ∀ k, traffic k (ops.map blank) = traffic k ops := by
  induction ops with
  | nil => intro k; rfl
  | cons op ops ih =>
    intro k
    simp only [List.map_cons, traffic, known_blank, ih]
    cases op <;> rfl

/-- Two runs that differ in the private inputs, and in offset, labels, permutation and transfers: both parties go through the same
statements, with the same kinds and lengths of messages on the same connections. -/
theorem C96_inputs_unseen (E E' : Env) (d d' : Block) (ops ops' : List Op) (hs : ops.map blank = ops'.map blank)
    (hc : NoCoincidence E (Direct.start d) ops) (hc' : NoCoincidence E' (Direct.start d') ops') (batch top : Nat) :
    aliceAll (.direct batch) top [.gates (genEvs E (Direct.start d) ops)]
        = aliceAll (.direct batch) top [.gates (genEvs E' (Direct.start d') ops')]
      ∧ bobAll (.direct batch) top [.gates (evaEvs E (Direct.start d) ops)]
        = bobAll (.direct batch) top [.gates (evaEvs E' (Direct.start d') ops')] := by
  have h := C96_traffic E d ops hc
  have h' := C96_traffic E' d' ops' hc'
  have e : traffic [] ops = traffic [] ops' := by rw [← traffic_blank ops, hs, traffic_blank]
  rw [h.1, h.2, h'.1, h'.2, e]
  exact ⟨rfl, rfl⟩

/-- Every assignment of private inputs to every program, in an environment without coincidences. -/
example : ∃ E : Env, ∀ (ops ops' : List Op) (batch top : Nat), ops.map blank = ops'.map blank →
    aliceAll (.direct batch) top [.gates (genEvs E (Direct.start 0) ops)]
      = aliceAll (.direct batch) top [.gates (genEvs E (Direct.start 0) ops')] := by
  obtain ⟨E, _, _, h⟩ := Direct.C17_hypothesis_satisfiable
  exact ⟨E, fun ops ops' batch top hs => (C96_inputs_unseen E E 0 0 ops ops' hs (h ops) (h ops') batch top).1⟩

/-- Constants save tables: of the three conjunctions here one is sent.  The sum of a wire with itself does not count as known. -/
example : traffic [] [.inA true, .inB false, .pub true, .and 0 1, .and 0 2, .xor 0 0, .pub false, .and 5 6, .reveal .pub [3, 4, 5, 7]]
    = [.feedA, .feedB, .table, .opening .pub 4 3] := by decide

/-- Public inputs are seen: the same program with another constant sends another number of tables. -/
theorem C96_constants_seen (E E' : Env) (d d' : Block) (a b a' b' : Bool)
    (hc : NoCoincidence E (Direct.start d) [.inA a, .inB b, .pub true, .and 0 2, .and 1 3])
    (hc' : NoCoincidence E' (Direct.start d') [.inA a', .inB b', .pub false, .and 0 2, .and 1 3]) (batch top : Nat) :
    sentBytes (gen (.direct batch) top (genEvs E (Direct.start d) [.inA a, .inB b, .pub true, .and 0 2, .and 1 3])).1
      = sentBytes (gen (.direct batch) top (genEvs E' (Direct.start d') [.inA a', .inB b', .pub false, .and 0 2, .and 1 3])).1 + 32 := by
  have e1 : traffic [] [.inA a, .inB b, .pub true, .and 0 2, .and 1 3] = [.feedA, .feedB, .table] := rfl
  have e2 : traffic [] [.inA a', .inB b', .pub false, .and 0 2, .and 1 3] = [.feedA, .feedB] := rfl
  rw [(C96_traffic _ _ _ hc).1, (C96_traffic _ _ _ hc').1, e1, e2]
  have key : ∀ (x y : List Act), sentBytes (x ++ y) = sentBytes x + sentBytes y := by
    intro x y
    induction x with
    | nil => simp [sentBytes]
    | cons s x ih => cases s <;> simp [sentBytes, ih]; omega
  simp only [List.map_cons, List.map_nil, toEv, gen, genDirect]
  simp only [key, sentBytes]
  omega

example : ∃ E : Env, ∀ a b, NoCoincidence E (Direct.start 0) [.inA a, .inB b, .pub true, .and 0 2, .and 1 3] := by
  obtain ⟨E, _, _, h⟩ := Direct.C17_hypothesis_satisfiable
  exact ⟨E, fun _ _ => h _⟩

end Verif.Props.TrafficShape
