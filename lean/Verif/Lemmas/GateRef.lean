import Lean.Elab.Tactic
import Mathlib.Data.List.Forall2
import Verif.Model.GateOnline

/-!
Values on wires.  `plain` is the oracle that opens the plain value of a wire, i.e. the meaning of the operations as a Boolean program
(`Verif.Spec.Circuit`).  `Ref s m R` says that `m`, run from session `s` with this oracle, succeeds and ends with `R`.
-/

namespace Verif.Lemmas.Gate
open Verif.Model Verif.Model.Gate
open Verif.Spec.Circuit (Party Op next newWire get)

/-- The values of the wires of a session, the two public constants first. -/
def wv (s : Sess) : List Bool := s.program.foldl next []

/-- The value of a wire. -/
def bv (s : Sess) : Wire → Bool
  | .pub b => b
  | .idx n => get (wv s) (n + 2)

/-- The wire exists. -/
def inR (s : Sess) : Wire → Prop
  | .pub _ => True
  | .idx n => n < s.n

/-- The wire exists and has the value. -/
def BR (s : Sess) (w : Wire) (b : Bool) : Prop := inR s w ∧ bv s w = b

/-- The integer exists and has the value. -/
def IR (s : Sess) (x : SInt) (v : Integer) : Prop := List.Forall₂ (BR s) x v

/-- The same for vectors of integers. -/
def IRL (s : Sess) (x : List SInt) (v : List Integer) : Prop := List.Forall₂ (IR s) x v

/-- The counter of a session is the number of its wires. -/
def Valid (s : Sess) : Prop := (wv s).length = s.n + 2 ∧ get (wv s) 0 = false ∧ get (wv s) 1 = true

/-- Later sessions keep the wires. -/
def Ext (s t : Sess) : Prop := ∀ w b, BR s w b → BR t w b

/-- Openings show the plain values. -/
def plain : Oracle := fun s _ ws => ws.map (bv s)

/-- The oracle shows the plain values in all openings made between `s` and `t`. -/
def Agree (O : Oracle) (s t : Sess) : Prop :=
  ∀ (l r : List Ev) (p : Party) (ws : SInt) (n : Nat), t.evs = l ++ .reveal p ws :: r → s.evs.length ≤ r.length → Valid ⟨r, n⟩ →
    O ⟨r, n⟩ p ws = ws.map (bv ⟨r, n⟩)

/-- Run from `s`, `m` succeeds with a result that satisfies `R`, for every oracle that shows the plain values. -/
def Ref {α : Type} (s : Sess) (m : M α) (R : Sess → α → Prop) : Prop :=
  Valid s → ∃ a t, (∃ l, t.evs = l ++ s.evs) ∧ (∀ O, Agree O s t → m O s = .ok (a, t)) ∧ Ext s t ∧ Valid t ∧ R t a

theorem agree_plain (s t : Sess) : Agree plain s t := fun _ _ _ _ _ _ _ _ => rfl

theorem Ext.refl (s : Sess) : Ext s s := fun _ _ h => h
theorem Ext.trans {s t u : Sess} (h : Ext s t) (h' : Ext t u) : Ext s u := fun w b x => h' w b (h w b x)

theorem BR.mono {s t : Sess} (e : Ext s t) {w : Wire} {b : Bool} (h : BR s w b) : BR t w b := e w b h
theorem IR.mono {s t : Sess} (e : Ext s t) {x : SInt} {v : Integer} (h : IR s x v) : IR t x v :=
  List.Forall₂.imp (fun _ _ h => BR.mono e h) h
theorem IRL.mono {s t : Sess} (e : Ext s t) {x : List SInt} {v : List Integer} (h : IRL s x v) : IRL t x v :=
  List.Forall₂.imp (fun _ _ h => IR.mono e h) h

open Lean Elab Tactic Meta in
/-- Transport all facts about wires along an extension. -/
elab "lift_ext " e:ident : tactic => withMainContext do
  let mut ids := #[]
  for d in ← getLCtx do
    unless d.isImplementationDetail do
      if let .const c _ := (← instantiateMVars d.type).consumeMData.headBeta.getAppFn then
        if (← getEnv).contains (c ++ `mono) && (`Verif.Lemmas.Gate).isPrefixOf c then ids := ids.push d.userName
  for n in ids do
    let h := mkIdent n
    try evalTactic (← `(tactic| replace $h := ($h).mono $e))
    catch _ => pure ()

/-! ### Sessions -/

theorem wv_cons (e : Ev) (evs : List Ev) (n m : Nat) : wv ⟨e :: evs, n⟩ = (evOps e).foldl next (wv ⟨evs, m⟩) := by
  simp only [wv, Sess.program, List.reverse_cons, List.flatMap_append, List.foldl_append, List.flatMap_cons, List.flatMap_nil,
    List.append_nil]

theorem valid_empty : Valid {} := ⟨rfl, rfl, rfl⟩

theorem bv_eq {s : Sess} (h : Valid s) (w : Wire) : get (wv s) (wireNo w) = bv s w := by
  cases w with
  | pub b => cases b <;> simp [wireNo, bv, h.2.1, h.2.2]
  | idx n => rfl

theorem get_append {l r : List Bool} {i : Nat} (h : i < l.length) : get (l ++ r) i = get l i := by
  simp only [Verif.Spec.Circuit.get, List.getD_eq_getElem?_getD, List.getElem?_append_left h]

/-- A session with more wires. -/
theorem ext_of_append {s t : Sess} (hs : Valid s) {l : List Bool} (h : wv t = wv s ++ l) (hn : t.n = s.n + l.length) :
    Ext s t ∧ Valid t := by
  constructor
  · rintro w b ⟨hr, hb⟩
    cases w with
    | pub c => exact ⟨trivial, hb⟩
    | idx n =>
      have hr' : n < s.n := hr
      refine ⟨?_, ?_⟩
      · show n < t.n; omega
      · show get (wv t) (n + 2) = b
        rw [h, get_append (by rw [hs.1]; omega)]
        exact hb
  · refine ⟨?_, ?_, ?_⟩
    · rw [h, List.length_append, hs.1, hn]; omega
    · rw [h, get_append (by rw [hs.1]; omega)]; exact hs.2.1
    · rw [h, get_append (by rw [hs.1]; omega)]; exact hs.2.2

/-! ### Rules -/

theorem Ref.pure {α : Type} {s : Sess} {a : α} {R : Sess → α → Prop} (h : R s a) : Ref s (Pure.pure a : M α) R :=
  fun hs => ⟨a, s, ⟨[], rfl⟩, fun _ _ => rfl, Ext.refl s, hs, h⟩

theorem Ref.bind {α β : Type} {s : Sess} {m : M α} {f : α → M β} {R : Sess → α → Prop} {S : Sess → β → Prop} (h : Ref s m R)
    (hf : ∀ a t, Ext s t → R t a → Ref t (f a) S) : Ref s (m >>= f) S := by
  intro hs
  obtain ⟨a, t, ⟨l, hl⟩, e, x, v, r⟩ := h hs
  obtain ⟨b, u, ⟨l', hl'⟩, e', x', v', r'⟩ := hf a t x r v
  refine ⟨b, u, ⟨l' ++ l, by rw [hl', hl, List.append_assoc]⟩, ?_, x.trans x', v', r'⟩
  intro O hO
  have h1 : Agree O s t := by
    intro l1 r p ws n h1 h2 h3
    exact hO (l' ++ l1) r p ws n (by rw [hl', h1, List.append_assoc]) h2 h3
  have h2 : Agree O t u := by
    intro l1 r p ws n h1 h2 h3
    exact hO l1 r p ws n h1 (by rw [hl, List.length_append] at h2; omega) h3
  show (match m O s with | .ok (a, s1) => f a O s1 | .error x => .error x) = Except.ok (b, u)
  rw [e O h1]
  exact e' O h2

theorem Ref.mono {α : Type} {s : Sess} {m : M α} {R S : Sess → α → Prop} (h : Ref s m R) (hi : ∀ t a, Ext s t → R t a → S t a) :
    Ref s m S := by
  intro hs
  obtain ⟨a, t, l, e, x, v, r⟩ := h hs
  exact ⟨a, t, l, e, x, v, hi t a x r⟩

theorem Ref.lift {α : Type} {s : Sess} {r : Res α} {R : Sess → α → Prop} {a : α} (h : r = .ok a) (hr : R s a) : Ref s (lift r) R :=
  fun hs => ⟨a, s, ⟨[], rfl⟩, fun _ _ => by rw [h]; rfl, Ext.refl s, hs, hr⟩

theorem foldl_inA (x w : List Bool) : (x.map Op.inA).foldl next w = w ++ x := by
  induction x generalizing w with
  | nil => simp
  | cons b x ih => simp only [List.map_cons, List.foldl_cons, ih]; simp [next, newWire]

theorem foldl_inB (x w : List Bool) : (x.map Op.inB).foldl next w = w ++ x := by
  induction x generalizing w with
  | nil => simp
  | cons b x ih => simp only [List.map_cons, List.foldl_cons, ih]; simp [next, newWire]

theorem foldl_inP (x w : List Bool) : (x.map Op.pub).foldl next w = w ++ x := by
  induction x generalizing w with
  | nil => simp
  | cons b x ih => simp only [List.map_cons, List.foldl_cons, ih]; simp [next, newWire]

theorem Ref.feed {s : Sess} (p : Party) (x : List Bool) : Ref s (feed p x) (fun t a => IR t a x) := by
  intro hs
  have hw : wv ⟨.feed p x :: s.evs, s.n + x.length⟩ = wv s ++ x := by
    rw [wv_cons _ _ _ s.n]
    cases p
    · exact foldl_inA x _
    · exact foldl_inB x _
    · exact foldl_inP x _
  obtain ⟨e, v⟩ := ext_of_append (t := ⟨.feed p x :: s.evs, s.n + x.length⟩) hs hw rfl
  refine ⟨_, _, ⟨[.feed p x], rfl⟩, fun _ _ => rfl, e, v, ?_⟩
  show List.Forall₂ _ _ _
  rw [List.forall₂_iff_get]
  refine ⟨by simp, ?_⟩
  intro i h1 h2
  simp only [List.get_eq_getElem, List.getElem_map, List.getElem_range', Nat.one_mul]
  refine ⟨?_, ?_⟩
  · show s.n + i < s.n + x.length
    omega
  · show get (wv _) (s.n + i + 2) = _
    rw [hw]
    simp only [Verif.Spec.Circuit.get, List.getD_eq_getElem?_getD]
    rw [List.getElem?_append_right (by rw [hs.1]; omega), hs.1, show s.n + i + 2 - (s.n + 2) = i by omega,
      List.getElem?_eq_getElem h2]
    rfl

theorem Ref.gate {s : Sess} {e : Ev} {op : Op} {b : Bool} (he : evOps e = [op]) (hb : Valid s → newWire (wv s) op = some b) :
    Ref s (gate e) (fun t w => BR t w b) := by
  intro hs
  have hw : wv ⟨e :: s.evs, s.n + 1⟩ = wv s ++ [b] := by
    rw [wv_cons _ _ _ s.n, he]
    simp only [List.foldl_cons, List.foldl_nil, next]
    rw [show (⟨s.evs, s.n⟩ : Sess) = s from rfl, hb hs]
    rfl
  obtain ⟨x, v⟩ := ext_of_append (t := ⟨e :: s.evs, s.n + 1⟩) hs hw rfl
  refine ⟨_, _, ⟨[e], rfl⟩, fun _ _ => rfl, x, v, ?_, ?_⟩
  · show s.n < s.n + 1
    omega
  · show get (wv _) (s.n + 2) = b
    rw [hw]
    simp only [Verif.Spec.Circuit.get, List.getD_eq_getElem?_getD]
    rw [List.getElem?_append_right (by rw [hs.1]; exact Nat.le_refl _), hs.1, Nat.sub_self]
    rfl

theorem Ref.andG {s : Sess} {a b : Wire} {x y : Bool} (ha : BR s a x) (hb : BR s b y) : Ref s (andG a b) (fun t w => BR t w (x && y)) :=
  Ref.gate rfl fun hs => by simp only [newWire, bv_eq hs, ha.2, hb.2]

theorem Ref.xorG {s : Sess} {a b : Wire} {x y : Bool} (ha : BR s a x) (hb : BR s b y) : Ref s (xorG a b) (fun t w => BR t w (x ^^ y)) :=
  Ref.gate rfl fun hs => by simp only [newWire, bv_eq hs, ha.2, hb.2]

theorem Ref.notG {s : Sess} {a : Wire} {x : Bool} (ha : BR s a x) : Ref s (notG a) (fun t w => BR t w (!x)) :=
  Ref.gate rfl fun hs => by simp only [newWire, bv_eq hs, ha.2]

theorem map_bv {s : Sess} {x : SInt} {v : Integer} (h : IR s x v) : x.map (bv s) = v := by
  induction h with
  | nil => rfl
  | cons h _ ih => simp only [List.map_cons, h.2, ih]

theorem Ref.reveal {s : Sess} {x : SInt} {v : Integer} (p : Party) (h : IR s x v) : Ref s (reveal p x) (fun _ o => o = v) := by
  intro hs
  have hw : wv ⟨.reveal p x :: s.evs, s.n⟩ = wv s ++ [] := by
    rw [wv_cons _ _ _ s.n]
    rfl
  obtain ⟨e, v'⟩ := ext_of_append (t := ⟨.reveal p x :: s.evs, s.n⟩) hs hw rfl
  refine ⟨v, _, ⟨[.reveal p x], rfl⟩, ?_, e, v', rfl⟩
  intro O hO
  have := hO [] s.evs p x s.n rfl (Nat.le_refl _) hs
  rw [show (⟨s.evs, s.n⟩ : Sess) = s from rfl, map_bv h] at this
  show Except.ok (O s p x, _) = _
  rw [this]

theorem Ref.foldlM {α β ι : Type} {f : α → ι → M α} {g : β → ι → β} {R : Sess → α → β → Prop}
    (h : ∀ s a b i, R s a b → Ref s (f a i) (fun t a' => R t a' (g b i))) (l : List ι) :
    ∀ {s : Sess} {a : α} {b : β}, R s a b → Ref s (l.foldlM f a) (fun t a' => R t a' (l.foldl g b)) := by
  induction l with
  | nil => intro s a b r; exact Ref.pure r
  | cons i l ih =>
    intro s a b r
    simp only [List.foldlM_cons, List.foldl_cons]
    exact Ref.bind (h s a b i r) fun a' t _ r' => ih r'

/-! ### Integers -/

theorem IR.nil {s : Sess} : IR s [] [] := List.Forall₂.nil
theorem IR.length {s : Sess} {x : SInt} {v : Integer} (h : IR s x v) : x.length = v.length := List.Forall₂.length_eq h
theorem IR.append {s : Sess} {x y : SInt} {v w : Integer} (h : IR s x v) (h' : IR s y w) : IR s (x ++ y) (v ++ w) := List.rel_append h h'
theorem IR.take {s : Sess} {x : SInt} {v : Integer} (h : IR s x v) (n : Nat) : IR s (x.take n) (v.take n) := List.forall₂_take n h
theorem IR.drop {s : Sess} {x : SInt} {v : Integer} (h : IR s x v) (n : Nat) : IR s (x.drop n) (v.drop n) := List.forall₂_drop n h
theorem IR.pub {s : Sess} (v : Integer) : IR s (v.map .pub) v := by
  induction v with
  | nil => exact .nil
  | cons b v ih => exact .cons ⟨trivial, rfl⟩ ih
theorem IR.pubInt {s : Sess} (n v : Nat) : IR s (pubInt n v) (Integer.ofNat n v) := IR.pub _
theorem IR.replicate {s : Sess} (n : Nat) (b : Bool) : IR s (List.replicate n (.pub b)) (List.replicate n b) := by
  have := IR.pub (s := s) (List.replicate n b)
  rwa [List.map_replicate] at this
theorem IR.single {s : Sess} {w : Wire} {b : Bool} (h : BR s w b) : IR s [w] [b] := .cons h .nil
theorem BR.pub {s : Sess} (b : Bool) : BR s (.pub b) b := ⟨trivial, rfl⟩

theorem IR.reverse {s : Sess} {x : SInt} {v : Integer} (h : IR s x v) : IR s x.reverse v.reverse := List.rel_reverse h
theorem IR.dropLast {s : Sess} {x : SInt} {v : Integer} (h : IR s x v) : IR s x.dropLast v.dropLast := by
  rw [List.dropLast_eq_take, List.dropLast_eq_take, h.length]; exact h.take _

theorem IRL.nil {s : Sess} : IRL s [] [] := List.Forall₂.nil
theorem IRL.length {s : Sess} {x : List SInt} {v : List Integer} (h : IRL s x v) : x.length = v.length := List.Forall₂.length_eq h
theorem IRL.append {s : Sess} {x y : List SInt} {v w : List Integer} (h : IRL s x v) (h' : IRL s y w) : IRL s (x ++ y) (v ++ w) :=
  List.rel_append h h'
theorem IRL.single {s : Sess} {x : SInt} {v : Integer} (h : IR s x v) : IRL s [x] [v] := .cons h .nil
theorem IRL.take {s : Sess} {x : List SInt} {v : List Integer} (h : IRL s x v) (n : Nat) : IRL s (x.take n) (v.take n) :=
  List.forall₂_take n h

theorem IRL.getD {s : Sess} {x : List SInt} {v : List Integer} (h : IRL s x v) (i : Nat) : IR s (x.getD i []) (v.getD i []) := by
  induction h generalizing i with
  | nil => exact .nil
  | cons h _ ih => cases i with | zero => exact h | succ i => exact ih i

theorem IRL.map {s : Sess} {ι : Type} {f : ι → SInt} {g : ι → Integer} (l : List ι) (h : ∀ i, IR s (f i) (g i)) :
    IRL s (l.map f) (l.map g) := by
  induction l with
  | nil => exact .nil
  | cons i l ih => exact .cons (h i) ih

theorem Ref.zipGate {g : Wire → Wire → M Wire} {f : Bool → Bool → Bool}
    (h : ∀ {s a b x y}, BR s a x → BR s b y → Ref s (g a b) (fun t w => BR t w (f x y))) :
    ∀ {s : Sess} {a b : SInt} {x y : Integer}, IR s a x → IR s b y → Ref s (zipGate g a b) (fun t w => IR t w (List.zipWith f x y)) := by
  intro s a
  induction a generalizing s with
  | nil =>
    intro b x y ha hb
    cases ha
    exact Ref.pure .nil
  | cons a as ih =>
    intro b x y ha hb
    cases ha with
    | @cons _ x _ xs h1 h2 =>
      cases hb with
      | nil => exact Ref.pure .nil
      | @cons b y bs ys h3 h4 =>
        unfold Gate.zipGate
        refine Ref.bind (h h1 h3) fun c t e hc => ?_
        refine Ref.bind (ih (IR.mono e h2) (IR.mono e h4)) fun r u e' hr => ?_
        exact Ref.pure (.cons (hc.mono e') hr)

theorem Ref.xorI {s : Sess} {a b : SInt} {x y : Integer} (ha : IR s a x) (hb : IR s b y) :
    Ref s (xorI a b) (fun t w => IR t w (Integer.xor x y)) := Ref.zipGate (fun h h' => Ref.xorG h h') ha hb

theorem Ref.andI {s : Sess} {a b : SInt} {x y : Integer} (ha : IR s a x) (hb : IR s b y) :
    Ref s (andI a b) (fun t w => IR t w (Integer.and x y)) := Ref.zipGate (fun h h' => Ref.andG h h') ha hb

theorem IR.shl {s : Sess} {x : SInt} {v : Integer} (h : IR s x v) (k : Nat) : IR s (Gate.shl x k) (Integer.shl v k) := by
  unfold Gate.shl Integer.shl
  rw [h.length]
  split
  · exact IR.replicate _ _
  · exact (IR.replicate _ _).append (h.take _)

theorem IR.shr {s : Sess} {x : SInt} {v : Integer} (h : IR s x v) (k : Nat) : IR s (Gate.shr x k) (Integer.shr v k) := by
  unfold Gate.shr Integer.shr
  rw [h.length]
  split
  · exact IR.replicate _ _
  · exact (h.drop _).append (IR.replicate _ _)

theorem Ref.rrot {s : Sess} {x : SInt} {v : Integer} (h : IR s x v) (k : Nat) :
    Ref s (Gate.rrot x k) (fun t w => IR t w (Verif.Model.rrot v k)) := by
  unfold Gate.rrot Verif.Model.rrot
  rw [h.length]
  exact Ref.xorI (h.shr _) (h.shl _)

theorem IR.concat {s : Sess} {xs : List SInt} {vs : List Integer} (h : IRL s xs vs) : ∀ {x : SInt} {v : Integer}, IR s x v →
    IR s (Gate.concat x xs) (Verif.Model.concat v vs) := by
  induction h with
  | nil => intro x v hx; exact hx
  | cons h1 _ ih => intro x v hx; exact ih (h1.append hx)

theorem IR.reverseConcat {s : Sess} {xs : List SInt} {vs : List Integer} (h : IRL s xs vs) : ∀ {x : SInt} {v : Integer}, IR s x v →
    IR s (Gate.reverseConcat x xs) (Verif.Model.reverseConcat v vs) := by
  induction h with
  | nil => intro x v hx; exact hx
  | cons h1 _ ih => intro x v hx; exact ih (IR.append hx h1)

theorem IR.extract {s : Sess} {x : SInt} {v : Integer} (h : IR s x v) {o n : Nat} {r : Integer}
    (e : Verif.Model.extractInteger v o n = .ok r) : ∃ y, Gate.extractInteger x o n = .ok y ∧ IR s y r := by
  unfold Verif.Model.extractInteger at e
  unfold Gate.extractInteger
  rw [h.length]
  split at e
  · rename_i hl
    rw [if_pos hl]
    cases e
    exact ⟨_, rfl, (h.drop _).take _⟩
  · cases e

/-- Circuits for the operators that compute what the operators mean, on operands as the repository uses them. -/
structure LibSound (L : Lib) : Prop where
  add : ∀ {s a b x y}, IR s a x → IR s b y → x.length = y.length → Ref s (L.add a b) (fun t w => IR t w (Integer.add x y))
  sub : ∀ {s a b x y}, IR s a x → IR s b y → x.length = y.length → Ref s (L.sub a b) (fun t w => IR t w (Integer.sub x y))
  geq : ∀ {s a b x y}, IR s a x → IR s b y → x.length = y.length → Ref s (L.geq a b) (fun t w => BR t w (Integer.geq x y))
  select : ∀ {s a c b x z y}, IR s a x → BR s c z → IR s b y → x.length = y.length →
    Ref s (L.select a c b) (fun t w => IR t w (Integer.select x z y))

end Verif.Lemmas.Gate
