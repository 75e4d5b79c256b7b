import Verif.Model.AESCircuit

/-!
Kernel-checked certificates for circuits.

`ssaCheck`: every wire is written once and after its operands, so the final wires satisfy all gate equations.
`modCheck`: a certificate evaluates a part of the circuit on symbolic values (truth tables, or masks of linear forms).
The checkers are written with the `Nat` operations the kernel evaluates natively.
-/

namespace Verif.Lemmas.Bristol
open Verif.Model.AESCircuit

/-- `f n`, `n` being evaluated first by the kernel. -/
def force {α : Type} (n : Nat) (f : Nat → α) : α :=
  Nat.rec (motive := fun _ => α) (f 0) (fun m _ => f (Nat.succ m)) n

theorem force_eq {α : Type} (n : Nat) (f : Nat → α) : force n f = f n := by cases n <;> rfl

/-- The field of a gate record. -/
def fld (r s : Nat) : Nat := Nat.mod (Nat.shiftRight r s) 65536

/-- The raw record of gate `i`, higher bits being the following gates. -/
def raw (chunks : List Nat) (i : Nat) : Nat :=
  Nat.shiftRight (chunks.getD (Nat.div i 256) 0) (Nat.mul 64 (Nat.mod i 256))

theorem gate_raw (c : Circuit) (i : Nat) :
    c.gate i = ⟨fld (raw c.chunks i) 0, fld (raw c.chunks i) 16, fld (raw c.chunks i) 32, fld (raw c.chunks i) 48⟩ := rfl

/-- The chunks as a tree, for fast access: the children hold the even and the odd positions. -/
inductive Tree where
  | leaf (n : Nat)
  | node (l r : Tree)

def Tree.get : Tree → Nat → Nat
  | .leaf n, _ => n
  | .node l r, i => cond (Nat.beq (Nat.mod i 2) 0) (l.get (Nat.div i 2)) (r.get (Nat.div i 2))

/-- `raw` read from a tree. -/
def rawT (t : Tree) (i : Nat) : Nat := Nat.shiftRight (t.get (Nat.div i 256)) (Nat.mul 64 (Nat.mod i 256))

/-- Field `i` (16 bits) of a tree of chunks of 256 fields. -/
def fieldT (t : Tree) (i : Nat) : Nat :=
  Nat.mod (Nat.shiftRight (t.get (Nat.div i 256)) (Nat.mul 16 (Nat.mod i 256))) 65536

/-- `f` holds below `n`. -/
def allLt : Nat → (Nat → Bool) → Bool
  | 0, _ => true
  | n + 1, f => and (f n) (allLt n f)

theorem allLt_sound {n : Nat} {f : Nat → Bool} (h : allLt n f = true) : ∀ i < n, f i = true := by
  induction n with
  | zero => intro i hi; omega
  | succ n ih =>
    simp only [allLt, Bool.and_eq_true] at h
    intro i hi
    by_cases e : i = n
    · rw [e]; exact h.1
    · exact ih h.2 i (by omega)

/-- The tree holds the chunks. -/
def treeCheck (chunks : List Nat) (t : Tree) : Bool :=
  allLt chunks.length fun i => Nat.beq (t.get i) (chunks.getD i 0)

theorem tree_sound {c : Circuit} {t : Tree} (h : treeCheck c.chunks t = true) (i : Nat) (hi : i < 256 * c.chunks.length) :
    rawT t i = raw c.chunks i := by
  have := allLt_sound h (i / 256) (by omega)
  have e := Nat.eq_of_beq_eq_true this
  simp only [rawT, raw]
  rw [show Nat.div i 256 = i / 256 from rfl, e]

/-! ### Static single assignment -/

inductive Ssa where
  | bad
  | ok (i : Nat)

/-- The wire `x` is an input or written by a gate before `i` (if at all). -/
def early (p : Tree) (nin i x : Nat) : Bool :=
  or (Nat.ble (Nat.succ x) nin) (Nat.ble (Nat.succ (fieldT p x)) i)

/-- Check gate `i` with record `r`; `p` is the table of the gates that write the wires. -/
def ssaGate (p : Tree) (nin i r : Nat) : Bool :=
  and (Nat.ble (fld r 0) 2)
    (and (early p nin i (fld r 16))
      (and (early p nin i (fld r 32))
        (and (Nat.ble nin (fld r 48)) (Nat.beq (fieldT p (fld r 48)) i))))

/-- One gate. -/
def ssaStep (t p : Tree) (n nin : Nat) : Ssa → Ssa
  | .bad => .bad
  | .ok i =>
    cond (Nat.beq i n) (.ok i)
      (force (rawT t i) fun r => cond (ssaGate p nin i r) (force (Nat.add i 1) fun i' => .ok i') .bad)

/-- `2^d` gates. -/
def ssaRun (t p : Tree) (n nin : Nat) : Nat → Ssa → Ssa
  | 0, st => ssaStep t p n nin st
  | d + 1, st =>
    match ssaRun t p n nin d st with
    | .bad => .bad
    | .ok i => ssaRun t p n nin d (.ok i)

/-- All gates. -/
def ssaCheck (t p : Tree) (n nin d : Nat) : Bool :=
  match ssaRun t p n nin d (.ok 0) with
  | .bad => false
  | .ok i => Nat.beq i n

theorem ssaRun_sound (t p : Tree) (n nin : Nat) (d : Nat) (i : Nat) (h : ∀ j < i, ssaGate p nin j (rawT t j) = true)
    (i' : Nat) (e : ssaRun t p n nin d (.ok i) = .ok i') : ∀ j < i', ssaGate p nin j (rawT t j) = true := by
  induction d generalizing i i' with
  | zero =>
    simp only [ssaRun, ssaStep, force_eq] at e
    cases hb : Nat.beq i n with
    | true => rw [hb] at e; simp only [cond_true, Ssa.ok.injEq] at e; subst e; exact h
    | false =>
      rw [hb] at e
      cases hg : ssaGate p nin i (rawT t i) with
      | false => rw [hg] at e; simp at e
      | true =>
        rw [hg] at e
        simp only [cond_true, cond_false, Ssa.ok.injEq] at e
        subst e
        intro j hj
        by_cases ej : j = i
        · rw [ej]; exact hg
        · exact h j (by have : j < i + 1 := hj; omega)
  | succ d ih =>
    simp only [ssaRun] at e
    cases hr : ssaRun t p n nin d (.ok i) with
    | bad => rw [hr] at e; simp at e
    | ok i1 => rw [hr] at e; exact ih i1 (ih i h i1 hr) i' e

theorem early_sound {p : Tree} {nin i x : Nat} (h : early p nin i x = true) : x < nin ∨ fieldT p x < i := by
  simp only [early, Bool.or_eq_true] at h
  rcases h with h | h
  · exact Or.inl (Nat.le_of_ble_eq_true h)
  · exact Or.inr (Nat.le_of_ble_eq_true h)

theorem run_succ (c : Circuit) (w : Wires) (n : Nat) : c.run w (n + 1) = (c.gate n).eval (c.run w n) := by
  simp only [Circuit.run, List.range_succ, List.foldl_append, List.foldl_cons, List.foldl_nil]

theorem run_keep (c : Circuit) (w : Wires) (m n x : Nat) (hmn : m ≤ n) (h : ∀ j, m ≤ j → j < n → (c.gate j).o ≠ x) :
    c.run w n x = c.run w m x := by
  induction n with
  | zero => rw [show m = 0 by omega]
  | succ n ih =>
    by_cases e : m = n + 1
    · rw [e]
    · rw [run_succ]
      have hx := h n (by omega) (by omega)
      simp only [Gate.eval]
      rw [if_neg (fun q => hx q.symm)]
      exact ih (by omega) (fun j a b => h j a (by omega))

/-- The final wires satisfy every gate equation and keep the inputs. -/
theorem ssa_sound {c : Circuit} {t p : Tree} {d : Nat} (ht : treeCheck c.chunks t = true)
    (hn : c.numGate ≤ 256 * c.chunks.length) (h : ssaCheck t p c.numGate (c.n1 + c.n2) d = true) (w : Wires) :
    (∀ i < c.numGate, c.run w c.numGate (c.gate i).o = (c.gate i).out (c.run w c.numGate)) ∧
      ∀ x < c.n1 + c.n2, c.run w c.numGate x = w x := by
  have key : ∀ j < c.numGate, ssaGate p (c.n1 + c.n2) j (raw c.chunks j) = true := by
    intro j hj
    rw [← tree_sound ht j (by omega)]
    simp only [ssaCheck] at h
    cases hr : ssaRun t p c.numGate (c.n1 + c.n2) d (.ok 0) with
    | bad => rw [hr] at h; simp at h
    | ok i =>
      rw [hr] at h
      have e := Nat.eq_of_beq_eq_true h
      exact ssaRun_sound t p _ _ d 0 (fun j hj => by omega) i hr j (by omega)
  have facts : ∀ j < c.numGate, ((c.gate j).a < c.n1 + c.n2 ∨ fieldT p (c.gate j).a < j) ∧
      ((c.gate j).b < c.n1 + c.n2 ∨ fieldT p (c.gate j).b < j) ∧ c.n1 + c.n2 ≤ (c.gate j).o ∧ fieldT p (c.gate j).o = j := by
    intro j hj
    have hk := key j hj
    simp only [ssaGate, Bool.and_eq_true] at hk
    obtain ⟨_, h2, h3, h4, h5⟩ := hk
    rw [gate_raw]
    exact ⟨early_sound h2, early_sound h3, Nat.le_of_ble_eq_true h4, Nat.eq_of_beq_eq_true h5⟩
  have late : ∀ i ≤ c.numGate, ∀ x, (x < c.n1 + c.n2 ∨ fieldT p x < i) → c.run w c.numGate x = c.run w i x := by
    intro i hi x hx
    apply run_keep c w i c.numGate x hi
    intro j h1 h2 e
    obtain ⟨_, _, ho, hp⟩ := facts j h2
    rw [e] at ho hp
    omega
  refine ⟨?_, ?_⟩
  · intro i hi
    obtain ⟨ha, hb, ho, hp⟩ := facts i hi
    rw [late (i + 1) (by omega) _ (Or.inr (by omega)), run_succ]
    simp only [Gate.eval, if_true]
    unfold Gate.out
    rw [late i (by omega) _ ha, late i (by omega) _ hb]
  · intro x hx
    rw [late 0 (by omega) x (Or.inl hx)]
    rfl

/-! ### Modules -/

/-- Entry `i` from the top of a stack of `w`-bit values. -/
def rd (w mem i : Nat) : Nat := Nat.mod (Nat.shiftRight mem (Nat.mul w i)) (Nat.pow 2 w)

def push (w mem v : Nat) : Nat := Nat.add (Nat.shiftLeft mem w) v

theorem rd_push_zero (w mem v : Nat) (h : v < 2 ^ w) : rd w (push w mem v) 0 = v := by
  show ((mem <<< w + v) >>> (w * 0)) % 2 ^ w = v
  rw [Nat.mul_zero, Nat.shiftRight_zero, Nat.shiftLeft_eq, Nat.add_comm, Nat.add_mul_mod_self_right,
    Nat.mod_eq_of_lt h]

theorem rd_push_succ (w mem v i : Nat) (h : v < 2 ^ w) : rd w (push w mem v) (i + 1) = rd w mem i := by
  show ((mem <<< w + v) >>> (w * (i + 1))) % 2 ^ w = (mem >>> (w * i)) % 2 ^ w
  rw [Nat.shiftLeft_eq, Nat.shiftRight_eq_div_pow, Nat.shiftRight_eq_div_pow, Nat.mul_add, Nat.mul_one,
    Nat.add_comm (w * i) w, Nat.pow_add, ← Nat.div_div_eq_div_mul]
  congr 2
  rw [Nat.add_comm, Nat.add_mul_div_right _ _ (Nat.two_pow_pos w), Nat.div_eq_of_lt h, Nat.zero_add]

theorem rd_lt (w mem i : Nat) : rd w mem i < 2 ^ w := Nat.mod_lt _ (Nat.two_pow_pos w)

/-- The stack of `f i, ..., f (i + n - 1)`, the first on top. -/
def packFrom (w : Nat) (f : Nat → Nat) : Nat → Nat → Nat
  | 0, _ => 0
  | n + 1, i => push w (packFrom w f n (Nat.succ i)) (f i)

theorem rd_pack (w : Nat) (f : Nat → Nat) (n i j : Nat) (hf : ∀ k < i + n, f k < 2 ^ w) (hj : j < n) :
    rd w (packFrom w f n i) j = f (i + j) := by
  induction n generalizing i j with
  | zero => omega
  | succ n ih =>
    cases j with
    | zero => rw [packFrom, rd_push_zero _ _ _ (hf i (by omega))]; rfl
    | succ j =>
      rw [packFrom, rd_push_succ _ _ _ _ (hf i (by omega)), ih (i + 1) j (fun k hk => hf k (by omega)) (by omega)]
      congr 1; omega

inductive St where
  | bad
  /-- Certificate steps left, certificate, stack height, wires on the stack, values on the stack. -/
  | ok (n code k names mem : Nat)

/-- The value of a gate; `lin` forbids `AND`. -/
def gateVal (inv : Nat) (lin : Bool) (op va vb : Nat) : Option Nat :=
  cond (Nat.beq op 1) (some (Nat.xor va vb))
    (cond (Nat.beq op 0) (cond lin none (some (Nat.land va vb))) (cond (Nat.beq op 2) (some (Nat.xor va inv)) none))

/-- One certificate step: gate number, distances of the operands on the stack (16 bits each). -/
def modStep (t : Tree) (ng w inv : Nat) (lin : Bool) : St → St
  | .bad => .bad
  | .ok n code k names mem =>
    cond (Nat.beq n 0) (.ok n code k names mem)
      (force (fld code 0) fun idx => force (fld code 16) fun da => force (fld code 32) fun db =>
        force (rawT t idx) fun r =>
          cond (and (Nat.ble (Nat.succ idx) ng) (and (Nat.ble (Nat.succ da) k)
              (and (Nat.beq (rd 16 names da) (fld r 16))
                (or (Nat.beq (fld r 0) 2) (and (Nat.ble (Nat.succ db) k) (Nat.beq (rd 16 names db) (fld r 32)))))))
            (match gateVal inv lin (fld r 0) (rd w mem da) (rd w mem db) with
              | none => .bad
              | some v =>
                force (Nat.sub n 1) fun n' => force (Nat.shiftRight code 48) fun code' => force (Nat.succ k) fun k' =>
                  force (push 16 names (fld r 48)) fun names' => force (push w mem v) fun mem' => .ok n' code' k' names' mem')
            .bad)

/-- `2^d` certificate steps. -/
def modRun (t : Tree) (ng w inv : Nat) (lin : Bool) : Nat → St → St
  | 0, st => modStep t ng w inv lin st
  | d + 1, st =>
    match modRun t ng w inv lin d st with
    | .bad => .bad
    | .ok n code k names mem => modRun t ng w inv lin d (.ok n code k names mem)

/-- Run a certificate: `nv` variables with wires `nm` and values `ini`; `nt` targets with wires `tw`, expected values `ex`
and stack positions `tpos`. -/
def modCheck (t : Tree) (ng w inv : Nat) (lin : Bool) (nv : Nat) (nm ini : Nat → Nat) (nt : Nat) (tw ex : Nat → Nat)
    (tpos d n code : Nat) : Bool :=
  and (allLt nv fun v => and (Nat.ble (Nat.succ (nm v)) (Nat.pow 2 16)) (Nat.ble (Nat.succ (ini v)) (Nat.pow 2 w)))
    (match modRun t ng w inv lin d (.ok n code nv (packFrom 16 nm nv 0) (packFrom w ini nv 0)) with
      | .bad => false
      | .ok _ _ k names mem => allLt nt fun i => force (rd 16 tpos i) fun q =>
        and (Nat.ble (Nat.succ q) k) (and (Nat.beq (rd 16 names q) (tw i)) (Nat.beq (rd w mem q) (ex i))))

section
variable {c : Circuit} {t : Tree} {W : Wires} {w inv : Nat} {lin : Bool} {R : Nat → Bool → Prop}

/-- The values on the stack are related to the wires. -/
def StackOk (W : Wires) (w : Nat) (R : Nat → Bool → Prop) (k names mem : Nat) : Prop :=
  ∀ i < k, R (rd w mem i) (W (rd 16 names i))

theorem StackOk.push {k names mem x v : Nat} (h : StackOk W w R k names mem) (hx : x < 2 ^ 16) (hv : v < 2 ^ w)
    (hr : R v (W x)) : StackOk W w R (Nat.succ k) (push 16 names x) (push w mem v) := by
  intro i hi
  cases i with
  | zero => rw [rd_push_zero _ _ _ hx, rd_push_zero _ _ _ hv]; exact hr
  | succ i => rw [rd_push_succ _ _ _ _ hx, rd_push_succ _ _ _ _ hv]; exact h i (by omega)

theorem modRun_sound (ht : treeCheck c.chunks t = true) (hn : c.numGate ≤ 256 * c.chunks.length)
    (hW : ∀ i < c.numGate, W (c.gate i).o = (c.gate i).out W)
    (hxor : ∀ x y a b, R x a → R y b → R (x ^^^ y) (a != b)) (hinv : ∀ x a, R x a → R (x ^^^ inv) (!a))
    (hand : lin = false → ∀ x y a b, R x a → R y b → R (x &&& y) (a && b)) (hi : inv < 2 ^ w)
    (d n code k names mem : Nat) (h : StackOk W w R k names mem) (n' code' k' names' mem' : Nat)
    (e : modRun t c.numGate w inv lin d (.ok n code k names mem) = .ok n' code' k' names' mem') :
    StackOk W w R k' names' mem' := by
  induction d generalizing n code k names mem n' code' k' names' mem' with
  | zero =>
    simp only [modRun, modStep, force_eq] at e
    cases hb : Nat.beq n 0 with
    | true =>
      rw [hb] at e; simp only [cond_true, St.ok.injEq] at e
      obtain ⟨_, _, e3, e4, e5⟩ := e
      subst e3; subst e4; subst e5; exact h
    | false =>
      rw [hb] at e
      simp only [cond_false] at e
      generalize hidx : fld code 0 = idx at e
      generalize hda : fld code 16 = da at e
      generalize hdb : fld code 32 = db at e
      generalize hcc : (and (Nat.ble (Nat.succ idx) c.numGate) (and (Nat.ble (Nat.succ da) k)
              (and (Nat.beq (rd 16 names da) (fld (rawT t idx) 16))
                (or (Nat.beq (fld (rawT t idx) 0) 2) (and (Nat.ble (Nat.succ db) k)
                  (Nat.beq (rd 16 names db) (fld (rawT t idx) 32))))))) = cc at e
      cases cc with
      | false => simp at e
      | true =>
        simp only [cond_true] at e
        simp only [Bool.and_eq_true, Bool.or_eq_true] at hcc
        obtain ⟨c1, c2, c3, c4⟩ := hcc
        have c1 : idx < c.numGate := Nat.le_of_ble_eq_true c1
        have c2 : da < k := Nat.le_of_ble_eq_true c2
        have c3 := Nat.eq_of_beq_eq_true c3
        have hra := h da c2
        have hrb : fld (rawT t idx) 0 ≠ 2 → R (rd w mem db) (W (fld (rawT t idx) 32)) := by
          intro h2
          rcases c4 with c4 | ⟨c5, c6⟩
          · exact absurd (Nat.eq_of_beq_eq_true c4) h2
          · have c5 : db < k := Nat.le_of_ble_eq_true c5
            rw [← Nat.eq_of_beq_eq_true c6]; exact h db c5
        rw [c3] at hra
        have hg := hW idx c1
        rw [gate_raw, ← tree_sound ht idx (by omega)] at hg
        cases hv : gateVal inv lin (fld (rawT t idx) 0) (rd w mem da) (rd w mem db) with
        | none => rw [hv] at e; simp at e
        | some v =>
          rw [hv] at e
          simp only [St.ok.injEq] at e
          obtain ⟨_, _, e3, e4, e5⟩ := e
          subst e3; subst e4; subst e5
          have hvw : v < 2 ^ w ∧ R v (W (fld (rawT t idx) 48)) := by
            simp only [Gate.out] at hg
            rw [hg]
            revert hv hrb
            generalize fld (rawT t idx) 0 = op
            intro hrb hv
            unfold gateVal at hv
            match op, hrb, hv with
            | 0, hrb, hv =>
              cases hl : lin with
              | true => rw [hl] at hv; exact nomatch (show (none : Option Nat) = some v from hv)
              | false =>
                rw [hl] at hv
                have hv : (rd w mem da) &&& (rd w mem db) = v := Option.some.inj hv
                subst hv
                exact ⟨Nat.and_lt_two_pow _ (rd_lt _ _ _), by simpa using hand hl _ _ _ _ hra (hrb (by decide))⟩
            | 1, hrb, hv =>
              have hv : (rd w mem da) ^^^ (rd w mem db) = v := Option.some.inj hv
              subst hv
              exact ⟨Nat.xor_lt_two_pow (rd_lt _ _ _) (rd_lt _ _ _), by simpa using hxor _ _ _ _ hra (hrb (by decide))⟩
            | 2, hrb, hv =>
              have hv : (rd w mem da) ^^^ inv = v := Option.some.inj hv
              subst hv
              exact ⟨Nat.xor_lt_two_pow (rd_lt _ _ _) hi, by simpa using hinv _ _ hra⟩
            | op + 3, _, hv => exact nomatch (show (none : Option Nat) = some v from hv)
          exact h.push (Nat.mod_lt _ (by decide)) hvw.1 hvw.2
  | succ d ih =>
    simp only [modRun] at e
    cases hr : modRun t c.numGate w inv lin d (.ok n code k names mem) with
    | bad => rw [hr] at e; simp at e
    | ok n1 code1 k1 names1 mem1 =>
      rw [hr] at e
      exact ih _ _ _ _ _ (ih _ _ _ _ _ h _ _ _ _ _ hr) _ _ _ _ _ e

theorem modCheck_sound (ht : treeCheck c.chunks t = true) (hn : c.numGate ≤ 256 * c.chunks.length)
    (hW : ∀ i < c.numGate, W (c.gate i).o = (c.gate i).out W)
    (hxor : ∀ x y a b, R x a → R y b → R (x ^^^ y) (a != b)) (hinv : ∀ x a, R x a → R (x ^^^ inv) (!a))
    (hand : lin = false → ∀ x y a b, R x a → R y b → R (x &&& y) (a && b)) (hi : inv < 2 ^ w)
    {nv nt tpos d n code : Nat} {nm ini tw ex : Nat → Nat}
    (h : modCheck t c.numGate w inv lin nv nm ini nt tw ex tpos d n code = true)
    (hini : ∀ v < nv, R (ini v) (W (nm v))) (i : Nat) (hi' : i < nt) : R (ex i) (W (tw i)) := by
  simp only [modCheck, force_eq, Bool.and_eq_true] at h
  obtain ⟨h1, h2⟩ := h
  have hb := allLt_sound h1
  simp only [Bool.and_eq_true] at hb
  cases hr : modRun t c.numGate w inv lin d (.ok n code nv (packFrom 16 nm nv 0) (packFrom w ini nv 0)) with
  | bad => rw [hr] at h2; simp at h2
  | ok n1 code1 k1 names1 mem1 =>
    rw [hr] at h2
    have hs : StackOk W w R nv (packFrom 16 nm nv 0) (packFrom w ini nv 0) := by
      intro v hv
      rw [rd_pack 16 nm nv 0 v (fun k hk => Nat.le_of_ble_eq_true (hb k (by omega)).1) hv,
        rd_pack w ini nv 0 v (fun k hk => Nat.le_of_ble_eq_true (hb k (by omega)).2) hv, Nat.zero_add]
      exact hini v hv
    have hf := modRun_sound ht hn hW hxor hinv hand hi d _ _ _ _ _ hs _ _ _ _ _ hr
    have hq := allLt_sound h2 i hi'
    simp only [Bool.and_eq_true] at hq
    obtain ⟨q1, q2, q3⟩ := hq
    have q1 : rd 16 tpos i < k1 := Nat.le_of_ble_eq_true q1
    have := hf _ q1
    rwa [Nat.eq_of_beq_eq_true q2, Nat.eq_of_beq_eq_true q3] at this

end

/-! ### Truth tables -/

/-- Truth tables of functions of eight bits. -/
theorem table_sound {c : Circuit} {t : Tree} {W : Wires} (ht : treeCheck c.chunks t = true)
    (hn : c.numGate ≤ 256 * c.chunks.length) (hW : ∀ i < c.numGate, W (c.gate i).o = (c.gate i).out W)
    {nv nt tpos d n code : Nat} {nm ini tw ex : Nat → Nat}
    (h : modCheck t c.numGate 256 (2 ^ 256 - 1) false nv nm ini nt tw ex tpos d n code = true) (x : Nat) (hx : x < 256)
    (hini : ∀ v < nv, (ini v).testBit x = W (nm v)) (i : Nat) (hi : i < nt) : (ex i).testBit x = W (tw i) := by
  refine modCheck_sound (R := fun v b => v.testBit x = b) ht hn hW ?_ ?_ ?_ (by decide) h hini i hi
  · intro u v a b hu hv; simp only [Nat.testBit_xor, hu, hv]
  · intro u a hu
    simp only [Nat.testBit_xor, hu, Nat.testBit_two_pow_sub_one, hx, decide_true, Bool.xor_true]
  · intro _ u v a b hu hv; simp only [Nat.testBit_and, hu, hv]

/-! ### Linear forms -/

/-- The value of the linear form with mask `v`. -/
def par (env : Nat → Bool) : Nat → Nat → Bool
  | 0, _ => false
  | n + 1, v => (par env n v) != (v.testBit n && env n)

theorem par_xor (env : Nat → Bool) (n u v : Nat) : par env n (u ^^^ v) = (par env n u != par env n v) := by
  induction n with
  | zero => rfl
  | succ n ih =>
    simp only [par, ih, Nat.testBit_xor]
    cases par env n u <;> cases par env n v <;> cases u.testBit n <;> cases v.testBit n <;> cases env n <;> rfl

theorem par_two_pow (env : Nat → Bool) (n k : Nat) : par env n (2 ^ k) = (decide (k < n) && env k) := by
  induction n with
  | zero => rfl
  | succ n ih =>
    simp only [par, ih, Nat.testBit_two_pow]
    by_cases e : k = n
    · subst e; simp
    · by_cases h : k < n
      · simp [e, h, Nat.lt_succ_of_lt h]
      · have : ¬ k < n + 1 := by omega
        simp [e, h, this]

theorem par_zero (env : Nat → Bool) (n : Nat) : par env n 0 = false := by
  induction n with
  | zero => rfl
  | succ n ih => simp [par, ih]

/-- The mask of a sum of variables. -/
def mask : List Nat → Nat
  | [] => 0
  | v :: l => Nat.xor (Nat.pow 2 v) (mask l)

/-- A sum of variables. -/
def sum (env : Nat → Bool) : List Nat → Bool
  | [] => false
  | v :: l => env v != sum env l

theorem par_mask (env : Nat → Bool) (n : Nat) (l : List Nat) (h : ∀ v ∈ l, v < n) : par env n (mask l) = sum env l := by
  induction l with
  | nil => exact par_zero env n
  | cons v l ih =>
    show par env n (2 ^ v ^^^ mask l) = _
    rw [par_xor, par_two_pow, ih (fun u hu => h u (List.mem_cons_of_mem _ hu)), sum]
    simp [h v List.mem_cons_self]

/-- Linear forms in at most 319 variables: variable 0 is the constant 1, variable `v + 1` the wire `nm v`. -/
theorem linear_sound {c : Circuit} {t : Tree} {W : Wires} (ht : treeCheck c.chunks t = true)
    (hn : c.numGate ≤ 256 * c.chunks.length) (hW : ∀ i < c.numGate, W (c.gate i).o = (c.gate i).out W)
    {nv nt tpos d n code : Nat} {nm tw : Nat → Nat} {ex : Nat → List Nat} (hnv : nv < 320)
    (h : modCheck t c.numGate 320 1 true nv nm (fun v => Nat.pow 2 (Nat.succ v)) nt tw (fun i => mask (ex i)) tpos d n code
      = true)
    (i : Nat) (hi : i < nt) (hex : ∀ v ∈ ex i, v < 320) :
    W (tw i) = sum (fun v => if v = 0 then true else W (nm (v - 1))) (ex i) := by
  rw [← par_mask _ 320 _ hex]
  symm
  refine modCheck_sound (R := fun v b => par (fun v => if v = 0 then true else W (nm (v - 1))) 320 v = b)
    ht hn hW ?_ ?_ ?_ (Nat.one_lt_two_pow (by decide)) h ?_ i hi
  · intro u v a b hu hv; rw [par_xor, hu, hv]
  · intro u a hu
    have := par_two_pow (fun v => if v = 0 then true else W (nm (v - 1))) 320 0
    rw [par_xor, hu, show (1 : Nat) = 2 ^ 0 from rfl, this]
    cases a <;> rfl
  · intro e; exact absurd e (by decide)
  · intro v hv
    show par _ 320 (2 ^ (v + 1)) = _
    rw [par_two_pow]
    simp; omega

end Verif.Lemmas.Bristol
