import Verif.Lemmas.AESProbe
import Verif.Lemmas.AeadRef
import Verif.Spec.Drift

/-! The cipher circuit inside a session: its operations, its values, and what gets on its wires if blocks are added to the tables of the last S-boxes. -/

namespace Verif.Lemmas.AESDrift
open Verif.Model Verif.Model.Gate Verif.Model.AESCircuit Verif.Model.GC Verif.Lemmas.AESCert Verif.Lemmas.Bristol Verif.Lemmas.AESCircuit Verif.Lemmas.AESProbe
open Verif.Lemmas.Gate (wv Valid IR BR inR bv)
open Verif.Spec
open Verif.Spec.Circuit (Op next onWire drift Calm)

/-- The wire of the session for a wire of the circuit file; `n` wires are there before. -/
def wireOf (n : Nat) (x y : SInt) (z : Nat) : Wire :=
  if z < 1408 then x.getD z (.pub false) else if z < 1536 then y.getD (z - 1408) (.pub false) else .idx (n + fieldT encProd z)

/-- The operation of a gate. -/
def evOf (n : Nat) (x y : SInt) (i : Nat) : Ev :=
  let g := aesEncKs.gate i
  if g.op = 0 then .and (wireOf n x y g.a) (wireOf n x y g.b) else if g.op = 1 then .xor (wireOf n x y g.a) (wireOf n x y g.b) else .not (wireOf n x y g.a)

def opOf (n : Nat) (x y : SInt) (i : Nat) : Op :=
  let g := aesEncKs.gate i
  if g.op = 0 then .and (wireNo (wireOf n x y g.a)) (wireNo (wireOf n x y g.b)) else if g.op = 1 then .xor (wireNo (wireOf n x y g.a)) (wireNo (wireOf n x y g.b))
  else .not (wireNo (wireOf n x y g.a))

theorem evOps_evOf (n : Nat) (x y : SInt) (i : Nat) : evOps (evOf n x y i) = [opOf n x y i] := by
  unfold evOf opOf
  simp only
  split
  · rfl
  · split <;> rfl

theorem foldlM_snoc {α : Type} (f : α → Nat → M α) (i : Nat) (O : Oracle) : ∀ (l : List Nat) (a : α) (s : Sess),
    (l ++ [i]).foldlM f a O s = match l.foldlM f a O s with | .ok (b, t) => f b i O t | .error e => .error e
  | [], a, s => by
    show (match f a i O s with | .ok (b, t) => Except.ok (b, t) | .error e => .error e) = f a i O s
    cases f a i O s <;> rfl
  | k :: l, a, s => by
    show (match f a k O s with | .ok (b, t) => (l ++ [i]).foldlM f b O t | .error e => .error e)
      = match (match f a k O s with | .ok (b, t) => l.foldlM f b O t | .error e => .error e) with | .ok (b, t) => f b i O t | .error e => .error e
    cases f a k O s with
    | error e => rfl
    | ok x => exact foldlM_snoc f i O l x.1 x.2

theorem foldlM_closed (O : Oracle) (s : Sess) (x y : SInt) (w0 : Nat → Wire) (h0 : ∀ z < 1536, w0 z = wireOf s.n x y z) : ∀ n, n ≤ aesEncKs.numGate →
    ∃ w, (List.range n).foldlM (fun w i => bristolGate (aesEncKs.gate i) w) w0 O s = .ok (w, ⟨((List.range n).map (evOf s.n x y)).reverse ++ s.evs, s.n + n⟩)
      ∧ ∀ z, Written aesEncKs n z → w z = wireOf s.n x y z := by
  intro n
  induction n with
  | zero =>
    intro _
    refine ⟨w0, rfl, fun z hz => ?_⟩
    rcases hz with h | ⟨k, hk, _⟩
    · exact h0 z h
    · omega
  | succ n ih =>
    intro hn
    obtain ⟨w, h1, h2⟩ := ih (by omega)
    obtain ⟨ha, hb⟩ := enc_wired.1 n hn
    refine ⟨fun z => if z = (aesEncKs.gate n).o then .idx (s.n + n) else w z, ?_, ?_⟩
    · rw [List.range_succ, foldlM_snoc, h1]
      simp only [List.map_append, List.reverse_append, List.map_cons, List.map_nil, List.reverse_cons, List.reverse_nil, List.nil_append,
        List.cons_append]
      unfold bristolGate gateOut evOf
      simp only
      rw [← h2 _ ha, ← h2 _ hb]
      by_cases e0 : (aesEncKs.gate n).op = 0
      · simp only [e0, if_true]; rfl
      · by_cases e1 : (aesEncKs.gate n).op = 1
        · simp only [e1, if_true, if_neg (show ¬(1 = 0) by decide)]; rfl
        · simp only [e0, e1, if_false]; rfl
    · intro z hz
      by_cases e : z = (aesEncKs.gate n).o
      · simp only [if_pos e]
        have := prod_gate n hn
        unfold wireOf
        rw [e, if_neg (by omega), if_neg (by omega), this.1]
      · simp only [if_neg e]
        refine h2 z ?_
        rcases hz with h | ⟨k, hk, e'⟩
        · exact Or.inl h
        · by_cases ek : k = n
          · subst ek; exact absurd e'.symm e
          · exact Or.inr ⟨k, by omega, e'⟩

theorem bind_run {α β : Type} {m : M α} {f : α → M β} {O : Oracle} {s t : Sess} {a : α} (h : m O s = .ok (a, t)) : (m >>= f) O s = f a O t := by
  show (match m O s with | .ok (a, s') => f a O s' | .error e => .error e) = _
  rw [h]

/-- The output wires of the circuit, in the order of `computeAES_KS`. -/
def outWires (n : Nat) : SInt := ((List.range 128).map fun o => Wire.idx (n + fieldT encProd (30467 + o))).reverse

/-- The session after the circuit. -/
def after (s : Sess) (x y : SInt) : Sess := ⟨((List.range aesEncKs.numGate).map (evOf s.n x y)).reverse ++ s.evs, s.n + aesEncKs.numGate⟩

theorem compute_closed (O : Oracle) (s : Sess) (x y : SInt) (j : Nat → Wire) (hx : x.length = 1408) (hy : y.length = 128) :
    Gate.computeAESKS j x y O s = .ok (outWires s.n, after s x y) := by
  obtain ⟨w, h1, h2⟩ := foldlM_closed O s x y (fun z => if z < aesEncKs.n1 then x.getD z (.pub false) else if z < aesEncKs.n1 + aesEncKs.n2 then y.getD (z - aesEncKs.n1) (.pub false) else j z)
    (by
      intro z hz
      show (if z < 1408 then _ else if z < 1536 then _ else _) = _
      unfold wireOf
      by_cases h : z < 1408
      · rw [if_pos h, if_pos h]
      · rw [if_neg h, if_pos hz, if_neg h, if_pos hz]
        rfl) _ (Nat.le_refl _)
  unfold Gate.computeAESKS bristol
  rw [if_neg (by rw [hx, hy]; decide)]
  refine (bind_run (t := after s x y) (bind_run h1)).trans ?_
  refine congrArg (fun l => Except.ok (l, after s x y)) ?_
  unfold outWires
  refine congrArg List.reverse ?_
  refine List.map_congr_left fun o ho => ?_
  have ho := List.mem_range.1 ho
  have ho : o < 128 := ho
  have := h2 _ (enc_wired.2 o ho)
  rw [this]
  have e : aesEncKs.numWire - aesEncKs.n3 + o = 30467 + o := by
    have : aesEncKs.numWire - aesEncKs.n3 = 30467 := by decide
    rw [this]
  rw [e]
  unfold wireOf
  rw [if_neg (by omega), if_neg (by omega)]

theorem program_evs (s : Sess) (x y : SInt) (k m : Nat) (l : List Nat) :
    (⟨(l.map (evOf k x y)).reverse ++ s.evs, m⟩ : Sess).program = s.program ++ l.map (opOf k x y) := by
  unfold Sess.program
  rw [List.reverse_append, List.reverse_reverse, List.flatMap_append, List.append_assoc]
  congr 2
  induction l with
  | nil => rfl
  | cons i l ih => rw [List.map_cons, List.flatMap_cons, ih, evOps_evOf]; rfl

theorem program_after (s : Sess) (x y : SInt) : (after s x y).program = s.program ++ (List.range aesEncKs.numGate).map (opOf s.n x y) :=
  program_evs s x y s.n _ _

/-! ### Wires -/

/-- The inputs of the circuit are wires of the session. -/
def Inputs (s : Sess) (x y : SInt) : Prop := (∀ w ∈ x, inR s w) ∧ ∀ w ∈ y, inR s w

theorem inputs_lt {s : Sess} {x y : SInt} (h : Inputs s x y) {z : Nat} (hz : z < 1536) : wireNo (wireOf s.n x y z) < s.n + 2 := by
  have key : ∀ (l : SInt) (k : Nat), (∀ w ∈ l, inR s w) → wireNo (l.getD k (.pub false)) < s.n + 2 := by
    intro l k hl
    have : l.getD k (.pub false) ∈ l ∨ l.getD k (.pub false) = .pub false := by
      rw [List.getD_eq_getElem?_getD]
      cases e : l[k]? with
      | none => exact Or.inr rfl
      | some v => exact Or.inl (List.mem_of_getElem? e)
    rcases this with h | h
    · have := hl _ h
      revert this
      cases l.getD k (.pub false) with
      | pub b => intro _; cases b <;> simp [wireNo]
      | idx n => intro h; have : n < s.n := h; simp [wireNo]; omega
    · rw [h]; simp [wireNo]
  unfold wireOf
  split
  · exact key _ _ h.1
  · exact key _ _ h.2

theorem wireOf_gate (n : Nat) (x y : SInt) {z : Nat} (hz : 1536 ≤ z) : wireNo (wireOf n x y z) = n + 2 + fieldT encProd z := by
  unfold wireOf
  rw [if_neg (by omega), if_neg (by omega)]
  simp only [wireNo]
  omega

theorem getD_range {α : Type} (f : Nat → α) (d : α) (n k : Nat) (h : k < n) : ((List.range n).map f).getD k d = f k := by
  rw [List.getD_eq_getElem?_getD, List.getElem?_map, List.getElem?_range h]
  rfl

/-- The values of the wires while the circuit runs. -/
theorem values_run {s : Sess} (hs : Valid s) {x y : SInt} (hin : Inputs s x y) {W : Wires} (hW : ∀ i < aesEncKs.numGate, W (aesEncKs.gate i).o = (aesEncKs.gate i).out W)
    (h0 : ∀ z < 1536, Circuit.get (wv s) (wireNo (wireOf s.n x y z)) = W z) : ∀ n, n ≤ aesEncKs.numGate →
    ((List.range n).map (opOf s.n x y)).foldl next (wv s) = wv s ++ (List.range n).map fun i => W (aesEncKs.gate i).o := by
  intro n
  induction n with
  | zero => intro _; simp
  | succ n ih =>
    intro hn
    have hi := ih (by omega)
    have hv : ∀ z, Written aesEncKs n z → Circuit.get (wv s ++ (List.range n).map fun i => W (aesEncKs.gate i).o) (wireNo (wireOf s.n x y z)) = W z := by
      intro z hz
      by_cases h : z < 1536
      · rw [Verif.Lemmas.Gate.get_append (by rw [hs.1]; exact inputs_lt hin h)]
        exact h0 z h
      · obtain ⟨a, b⟩ := written_prod (by omega) hz (by omega)
        rw [wireOf_gate _ _ _ (by omega)]
        unfold Circuit.get
        rw [List.getD_append_right _ _ _ _ (by rw [hs.1]; omega), hs.1, show s.n + 2 + fieldT encProd z - (s.n + 2) = fieldT encProd z by omega, getD_range _ _ _ _ a, b]
    obtain ⟨ha, hb⟩ := enc_wired.1 n hn
    rw [List.range_succ, List.map_append, List.foldl_append, hi, List.map_append, ← List.append_assoc]
    simp only [List.map_cons, List.map_nil, List.foldl_cons, List.foldl_nil]
    unfold next
    congr 1
    rw [hW n hn]
    unfold opOf Verif.Model.AESCircuit.Gate.out
    simp only
    by_cases e0 : (aesEncKs.gate n).op = 0
    · simp only [e0, if_true, Circuit.newWire, hv _ ha, hv _ hb]; rfl
    · by_cases e1 : (aesEncKs.gate n).op = 1
      · simp only [e1, if_true, Circuit.newWire, hv _ ha, hv _ hb, if_neg (show ¬(1 = 0) by decide)]; rfl
      · simp only [e0, e1, if_false, Circuit.newWire, hv _ ha]; rfl

/-- What is added at the gates of `lastGates`. -/
def added (S : Nat → Bool) (c : Nat → Bool) (N : Nat) (p : Nat) : Block := sel (S (p / 8) && c (N + lastArgs.getD p 0)) (tag (p % 8))

theorem onWire_zeros (n i : Nat) : onWire (List.replicate n (0 : Block)) i = 0#128 := by
  unfold onWire
  rw [List.getD_eq_getElem?_getD]
  by_cases h : i < n
  · rw [List.getElem?_replicate, if_pos h]; rfl
  · rw [List.getElem?_replicate, if_neg h]; rfl

theorem calm_app {P : Nat → Block × Block} {c : Nat → Bool} : ∀ (a b : List Op) (st : Nat × List Block), Calm P c st (a ++ b) ↔ Calm P c st a ∧ Calm P c (a.foldl (drift P c) st) b := by
  intro a
  induction a with
  | nil => intro b st; exact ⟨fun h => ⟨trivial, h⟩, fun h => h.2⟩
  | cons op a ih =>
    intro b st
    have := ih b (drift P c st op)
    constructor
    · rintro ⟨x, y⟩; exact ⟨⟨x, (this.1 y).1⟩, (this.1 y).2⟩
    · rintro ⟨⟨x, y⟩, z⟩; exact ⟨x, this.2 ⟨y, z⟩⟩

/-- What is on the wires while the circuit runs. -/
theorem drift_run {s : Sess} {x y : SInt} (hin : Inputs s x y) (k0 : Nat) (S c : Nat → Bool) : ∀ n, n ≤ aesEncKs.numGate →
    ((List.range n).map (opOf s.n x y)).foldl (drift (keyRows k0 S) c) (k0, List.replicate (s.n + 2) 0)
      = (k0 + gateNo aesEncKs n, List.replicate (s.n + 2) 0 ++ (List.range n).map fun i => tot (added S c (s.n + 2)) (gmask i) 128)
    ∧ Calm (keyRows k0 S) c (k0, List.replicate (s.n + 2) 0) ((List.range n).map (opOf s.n x y)) := by
  intro n
  induction n with
  | zero => intro _; exact ⟨by simp [gateNo], trivial⟩
  | succ n ih =>
    intro hn
    obtain ⟨hi, hcalm⟩ := ih (by omega)
    have hv : ∀ z, Written aesEncKs n z → onWire (List.replicate (s.n + 2) 0 ++ (List.range n).map fun i => tot (added S c (s.n + 2)) (gmask i) 128) (wireNo (wireOf s.n x y z))
        = tot (added S c (s.n + 2)) (wmask z) 128 := by
      intro z hz
      by_cases h : z < 1536
      · have hl := inputs_lt hin h
        have e : wmask z = 0 := by unfold wmask; rw [show Nat.ble (Nat.succ z) 1536 = true from by rw [Nat.ble_eq]; exact h, cond_true]
        rw [e, tot_zero]
        have := onWire_zeros (s.n + 2) (wireNo (wireOf s.n x y z))
        unfold onWire at this ⊢
        rw [List.getD_append _ _ _ _ (by rw [List.length_replicate]; exact hl)]
        exact this
      · obtain ⟨a, b⟩ := written_prod (by omega) hz (by omega)
        have e : wmask z = gmask (fieldT encProd z) := by
          unfold wmask
          rw [show Nat.ble (Nat.succ z) 1536 = false from by rw [← Bool.not_eq_true, Nat.ble_eq]; omega, cond_false]
        rw [wireOf_gate _ _ _ (by omega), e]
        unfold onWire
        rw [List.getD_append_right _ _ _ _ (by rw [List.length_replicate]; omega), List.length_replicate,
          show s.n + 2 + fieldT encProd z - (s.n + 2) = fieldT encProd z by omega, getD_range _ _ _ _ a]
    have hlen : ∀ z, Written aesEncKs n z → wireNo (wireOf s.n x y z) < (List.replicate (s.n + 2) (0 : Block) ++ (List.range n).map fun i => tot (added S c (s.n + 2)) (gmask i) 128).length := by
      intro z hz
      rw [List.length_append, List.length_replicate, List.length_map, List.length_range]
      by_cases h : z < 1536
      · have := inputs_lt hin h; omega
      · obtain ⟨a, b⟩ := written_prod (by omega) hz (by omega)
        rw [wireOf_gate _ _ _ (by omega)]
        omega
    obtain ⟨ha, hb⟩ := enc_wired.1 n hn
    obtain ⟨c0, c1, c2⟩ := carry_gate n hn
    rw [List.range_succ, List.map_append, List.foldl_append, hi, List.map_append, ← List.append_assoc, calm_app, hi, gateNo_succ]
    simp only [List.map_cons, List.map_nil, List.foldl_cons, List.foldl_nil]
    unfold opOf
    simp only
    by_cases e0 : (aesEncKs.gate n).op = 0
    · obtain ⟨m1, m2, m3⟩ := c0 e0
      have va := hv _ ha
      have vb := hv _ hb
      rw [m1, tot_zero] at va
      rw [m2, tot_zero] at vb
      rw [if_pos e0, if_pos e0]
      refine ⟨?_, hcalm, ?_, trivial⟩
      · simp only [drift]
        refine Prod.ext (Nat.add_assoc _ _ _) (congrArg (fun b => _ ++ [b]) ?_)
        rcases m3 with m3 | ⟨p, hp, hg, m3⟩
        · rw [rows_other e0 m3, m3, tot_zero]
          cases c _ <;> cases c _ <;> rfl
        · subst hg
          rw [rows_last k0 S p hp, m3, tot_pow, if_pos hp]
          obtain ⟨-, -, -, l4, l5⟩ := last_gate p hp
          rw [wireOf_gate _ _ _ l4, l5]
          unfold added
          simp only
          have z1 : ∀ b : Bool, (if b = true then (0 : Block) else 0) = 0#128 := by intro b; cases b <;> rfl
          rw [z1, BitVec.zero_xor]
          cases S (p / 8) <;> cases c (s.n + 2 + lastArgs.getD p 0) <;> rfl
      · intro i j hij
        cases hij
        exact ⟨va, vb, fun _ => ⟨hlen _ ha, hlen _ hb⟩⟩
    · by_cases e1 : (aesEncKs.gate n).op = 1
      · rw [if_neg e0, if_neg e0, if_pos e1]
        refine ⟨?_, hcalm, ?_, trivial⟩
        · simp only [drift]
          rw [hv _ ha, hv _ hb, c1 e1, tot_xor, Nat.add_zero (gateNo aesEncKs n)]
        · intro i j hij; cases hij
      · rw [if_neg e0, if_neg e0, if_neg e1]
        refine ⟨?_, hcalm, ?_, trivial⟩
        · simp only [drift]
          rw [hv _ ha, c2 e0 e1, Nat.add_zero (gateNo aesEncKs n)]
        · intro i j hij; cases hij

/-! ### Before and after the circuit -/

/-- Wires an operation creates. -/
def adds : Op → Nat
  | .reveal _ _ => 0
  | _ => 1

theorem length_next (w : List Bool) (op : Op) : (next w op).length = w.length + adds op := by
  cases op <;> simp [next, Circuit.newWire, adds]

/-- Nothing gets on a wire before the first changed table. -/
theorem zero_run (P : Nat → Block × Block) (c : Nat → Bool) : ∀ (ops : List Op) (k m : Nat), (∀ i < k + (ops.map Circuit.gates).sum, P i = (0, 0)) →
    ops.foldl (drift P c) (k, List.replicate m 0) = (k + (ops.map Circuit.gates).sum, List.replicate (m + (ops.map adds).sum) 0)
    ∧ Calm P c (k, List.replicate m 0) ops := by
  intro ops
  induction ops with
  | nil => intro k m _; exact ⟨rfl, trivial⟩
  | cons op ops ih =>
    intro k m hP
    rw [List.map_cons, List.sum_cons] at hP
    have one : drift P c (k, List.replicate m 0) op = (k + Circuit.gates op, List.replicate (m + adds op) 0) := by
      have rep : List.replicate (m + 1) (0 : Block) = List.replicate m 0 ++ [0] := List.replicate_succ'
      cases op with
      | and i j =>
        have h0 : P k = (0, 0) := hP k (by simp only [Circuit.gates]; omega)
        simp only [drift, Circuit.gates, adds]
        rw [rep, h0]
        cases c i <;> cases c j <;> rfl
      | xor i j =>
        simp only [drift, Circuit.gates, adds]
        rw [rep, onWire_zeros, onWire_zeros]
        rfl
      | not i =>
        simp only [drift, Circuit.gates, adds]
        rw [rep, onWire_zeros]
        rfl
      | reveal p ws => rfl
      | pub b => simp only [drift, Circuit.gates, adds]; rw [rep]; rfl
      | inA b => simp only [drift, Circuit.gates, adds]; rw [rep]; rfl
      | inB b => simp only [drift, Circuit.gates, adds]; rw [rep]; rfl
    obtain ⟨h1, h2⟩ := ih (k + Circuit.gates op) (m + adds op) (by intro i hi; exact hP i (by omega))
    refine ⟨?_, ?_, ?_⟩
    · rw [List.foldl_cons, one, h1, List.map_cons, List.map_cons, List.sum_cons, List.sum_cons, Nat.add_assoc, Nat.add_assoc]
    · intro i j hij
      subst hij
      have h0 : P k = (0, 0) := hP k (by simp only [Circuit.gates]; omega)
      exact ⟨onWire_zeros _ _, onWire_zeros _ _, fun h => absurd h0 h⟩
    · rw [one]; exact h2

theorem length_run : ∀ (ops : List Op) (w : List Bool), (ops.foldl next w).length = w.length + (ops.map adds).sum
  | [], w => rfl
  | op :: ops, w => by
    rw [List.foldl_cons, length_run ops, length_next, List.map_cons, List.sum_cons, Nat.add_assoc]

/-- The number of the first gate of the circuit in the session. -/
def firstNo (s : Sess) : Nat := (s.program.map Circuit.gates).sum

theorem drift_prefix {s : Sess} (hs : Valid s) {x y : SInt} (hin : Inputs s x y) (S c : Nat → Bool) (n : Nat) (hn : n ≤ aesEncKs.numGate) :
    (s.program ++ (List.range n).map (opOf s.n x y)).foldl (drift (keyRows (firstNo s) S) c) (0, [])
      = (firstNo s + gateNo aesEncKs n,
          List.replicate (s.n + 2) 0 ++ (List.range n).map fun i => tot (added S c (s.n + 2)) (gmask i) 128)
    ∧ Calm (keyRows (firstNo s) S) c (0, []) (s.program ++ (List.range n).map (opOf s.n x y)) := by
  obtain ⟨h1, h2⟩ := zero_run (keyRows (firstNo s) S) c s.program 0 0 (by
    intro i hi
    exact rows_before (by rw [Nat.zero_add] at hi; exact hi))
  have hl : (s.program.map adds).sum = s.n + 2 := by
    have := length_run s.program []
    rw [List.length_nil, Nat.zero_add] at this
    rw [← this]
    exact hs.1
  rw [Nat.zero_add, Nat.zero_add, hl, show (s.program.map Circuit.gates).sum = firstNo s from rfl] at h1
  obtain ⟨h3, h4⟩ := drift_run hin (firstNo s) S c n hn
  rw [List.foldl_append, calm_app]
  have h0 : ((0, []) : Nat × List Block) = (0, List.replicate 0 0) := rfl
  rw [h0, h1]
  exact ⟨h3, h2, h4⟩

/-- What is on the wires after the circuit. -/
theorem drift_after {s : Sess} (hs : Valid s) {x y : SInt} (hin : Inputs s x y) (S c : Nat → Bool) :
    (after s x y).program.foldl (drift (keyRows (firstNo s) S) c) (0, [])
      = (firstNo s + gateNo aesEncKs aesEncKs.numGate,
          List.replicate (s.n + 2) 0 ++ (List.range aesEncKs.numGate).map fun i => tot (added S c (s.n + 2)) (gmask i) 128)
    ∧ Calm (keyRows (firstNo s) S) c (0, []) (after s x y).program := by
  rw [program_after]
  exact drift_prefix hs hin S c _ (Nat.le_refl _)

/-- What is on an output of the circuit. -/
theorem out_drift {s : Sess} (S c : Nat → Bool) (o : Nat) (ho : o < 128) :
    onWire (List.replicate (s.n + 2) 0 ++ (List.range aesEncKs.numGate).map fun i => tot (added S c (s.n + 2)) (gmask i) 128) (s.n + 2 + fieldT encProd (30467 + o))
      = (lastCarry.getD (o % 8) []).foldl (fun b t => b ^^^ added S c (s.n + 2) (8 * rowFrom (o / 8) + t)) 0#128 := by
  have hw := (written_prod (Nat.le_refl _) (enc_wired.2 o ho) (by
    have e : aesEncKs.numWire - aesEncKs.n3 = 30467 := by decide
    rw [e]; omega)).1
  have e : aesEncKs.numWire - aesEncKs.n3 = 30467 := by decide
  rw [e] at hw
  unfold onWire
  rw [List.getD_append_right _ _ _ _ (by rw [List.length_replicate]; omega), List.length_replicate,
    show s.n + 2 + fieldT encProd (30467 + o) - (s.n + 2) = fieldT encProd (30467 + o) by omega, getD_range _ _ _ _ hw, out_mask o ho]
  have hr : ∀ t < 8, ∀ b ∈ lastCarry.getD t [], b < 8 := by decide
  have hr2 : rowFrom (o / 8) < 16 := by unfold rowFrom; omega
  have := tot_mask (added S c (s.n + 2)) 128 ((lastCarry.getD (o % 8) []).map fun t => 8 * rowFrom (o / 8) + t) 0#128 (by
    intro p hp
    obtain ⟨t, ht, rfl⟩ := List.mem_map.1 hp
    have := hr (o % 8) (by omega) t ht
    omega)
  rw [BitVec.zero_xor] at this
  rw [this, List.foldl_map]

end Verif.Lemmas.AESDrift
