import Verif.Model.GateOffline

/-! Relational reasoning about two computations that issue the same operations up to the values of the inputs. -/

namespace Verif.Lemmas.Gate
open Verif.Model Verif.Model.Gate
open Verif.Spec.Circuit (Party)

/-- Forget the values of the inputs of the two parties. -/
def erase : Ev → Ev
  | .feed .alice bits => .feed .alice (List.replicate bits.length false)
  | .feed .bob bits => .feed .bob (List.replicate bits.length false)
  | e => e

/-- Two sessions with the same operations up to input values. -/
def Same (s t : Sess) : Prop := s.evs.map erase = t.evs.map erase ∧ s.n = t.n

/-- Whenever `m` succeeds, so does `m'` with the same operations and related results, whatever the openings return. -/
def Rel {α β : Type} (R : α → β → Prop) (m : M α) (m' : M β) : Prop :=
  ∀ O O' s s', Same s s' → ∀ a t, m O s = .ok (a, t) → ∃ b t', m' O' s' = .ok (b, t') ∧ R a b ∧ Same t t'

theorem Rel.pure {α β : Type} {R : α → β → Prop} {a : α} {b : β} (h : R a b) :
    Rel R (Pure.pure a : M α) (Pure.pure b : M β) := by
  intro O O' s s' hs a' t e
  cases e
  exact ⟨b, s', rfl, h, hs⟩

theorem Rel.bind {α β γ δ : Type} {R : α → β → Prop} {S : γ → δ → Prop} {m : M α} {m' : M β} {f : α → M γ} {g : β → M δ}
    (h : Rel R m m') (hf : ∀ a b, R a b → Rel S (f a) (g b)) : Rel S (m >>= f) (m' >>= g) := by
  intro O O' s s' hs c t e
  have e' : (match m O s with | .ok (a, s1) => f a O s1 | .error x => .error x) = Except.ok (c, t) := e
  cases hm : m O s with
  | error x => rw [hm] at e'; cases e'
  | ok p =>
    obtain ⟨a, s1⟩ := p
    rw [hm] at e'
    obtain ⟨b, t1, e1, hr, hs1⟩ := h O O' s s' hs a s1 hm
    obtain ⟨d, t2, e2, hr2, hs2⟩ := hf a b hr O O' s1 t1 hs1 c t e'
    refine ⟨d, t2, ?_, hr2, hs2⟩
    show (match m' O' s' with | .ok (a, s1) => g a O' s1 | .error x => .error x) = Except.ok (d, t2)
    rw [e1]
    exact e2

theorem Rel.fail {α β : Type} {R : α → β → Prop} {e : Fault} {m' : M β} : Rel R (fail e : M α) m' := by
  intro O O' s s' hs a t h
  cases h

theorem Rel.mono {α β : Type} {R S : α → β → Prop} {m : M α} {m' : M β} (h : Rel R m m') (hi : ∀ a b, R a b → S a b) :
    Rel S m m' := by
  intro O O' s s' hs a t e
  obtain ⟨b, t', e', hr, hs'⟩ := h O O' s s' hs a t e
  exact ⟨b, t', e', hi a b hr, hs'⟩

theorem Rel.lift {α β : Type} {R : α → β → Prop} {r : Res α} {r' : Res β}
    (h : ∀ a, r = .ok a → ∃ b, r' = .ok b ∧ R a b) : Rel R (lift r) (lift r') := by
  intro O O' s s' hs a t e
  cases r with
  | error x => cases e
  | ok a' =>
    cases e
    obtain ⟨b, e', hr⟩ := h a rfl
    exact ⟨b, s', by rw [e']; rfl, hr, hs⟩

theorem Rel.ite {α β : Type} {R : α → β → Prop} {p q : Prop} [Decidable p] [Decidable q] (hpq : p ↔ q) {a b : M α} {c d : M β}
    (h1 : p → Rel R a c) (h2 : ¬p → Rel R b d) : Rel R (if p then a else b) (if q then c else d) := by
  by_cases h : p
  · rw [if_pos h, if_pos (hpq.1 h)]; exact h1 h
  · rw [if_neg h, if_neg (fun x => h (hpq.2 x))]; exact h2 h

theorem Rel.feed {p : Party} {x y : List Bool} (h : x.length = y.length) (hp : p ≠ .pub := by decide) :
    Rel Eq (feed p x) (feed p y) := by
  intro O O' s s' hs a t e
  cases e
  refine ⟨_, _, rfl, ?_, ?_, ?_⟩
  · rw [hs.2, h]
  · cases p with
    | pub => exact absurd rfl hp
    | alice => simp only [List.map_cons, erase, h, hs.1]
    | bob => simp only [List.map_cons, erase, h, hs.1]
  · simp only [hs.2, h]

theorem Rel.gate (e : Ev) : Rel Eq (gate e) (gate e) := by
  intro O O' s s' hs a t h
  cases h
  refine ⟨_, _, rfl, ?_, ?_, ?_⟩
  · rw [hs.2]
  · simp only [List.map_cons, hs.1]
  · simp only [hs.2]

theorem Rel.andG (a b : Wire) : Rel Eq (andG a b) (andG a b) := Rel.gate _
theorem Rel.xorG (a b : Wire) : Rel Eq (xorG a b) (xorG a b) := Rel.gate _
theorem Rel.notG (a : Wire) : Rel Eq (notG a) (notG a) := Rel.gate _

theorem Rel.reveal (p : Party) (ws : SInt) : Rel (fun _ _ => True) (reveal p ws) (reveal p ws) := by
  intro O O' s s' hs a t e
  cases e
  refine ⟨_, _, rfl, trivial, ?_, hs.2⟩
  simp only [List.map_cons, hs.1]

/-- `bind` for equal results. -/
theorem Rel.bindEq {α γ δ : Type} {S : γ → δ → Prop} {m m' : M α} {f : α → M γ} {g : α → M δ}
    (h : Rel Eq m m') (hf : ∀ a, Rel S (f a) (g a)) : Rel S (m >>= f) (m' >>= g) :=
  Rel.bind h fun a b e => by subst e; exact hf a

theorem Rel.foldlM {α β ι : Type} {R : α → β → Prop} {f : α → ι → M α} {g : β → ι → M β}
    (h : ∀ a b i, R a b → Rel R (f a i) (g b i)) (l : List ι) : ∀ {a : α} {b : β}, R a b → Rel R (l.foldlM f a) (l.foldlM g b) := by
  induction l with
  | nil => intro a b hr; exact Rel.pure hr
  | cons i l ih =>
    intro a b hr
    simp only [List.foldlM_cons]
    exact Rel.bind (h a b i hr) fun a b hr => ih hr

theorem Rel.zipGate {g : Wire → Wire → M Wire} (h : ∀ a b, Rel Eq (g a b) (g a b)) :
    ∀ x y : SInt, Rel Eq (zipGate g x y) (zipGate g x y)
  | [], _ => Rel.pure rfl
  | _ :: _, [] => Rel.pure rfl
  | a :: as, b :: bs => by
    unfold Gate.zipGate
    exact Rel.bindEq (h a b) fun c => Rel.bindEq (Rel.zipGate h as bs) fun r => Rel.pure rfl

theorem Rel.xorI (x y : SInt) : Rel Eq (xorI x y) (xorI x y) := Rel.zipGate Rel.xorG x y
theorem Rel.andI (x y : SInt) : Rel Eq (andI x y) (andI x y) := Rel.zipGate Rel.andG x y
theorem Rel.rrot (x : SInt) (k : Nat) : Rel Eq (rrot x k) (rrot x k) := Rel.xorI _ _

/-- The operators issue operations that depend on the wires only, not on values. -/
structure LibObl (L : Lib) : Prop where
  add : ∀ a b, Rel Eq (L.add a b) (L.add a b)
  sub : ∀ a b, Rel Eq (L.sub a b) (L.sub a b)
  geq : ∀ a b, Rel Eq (L.geq a b) (L.geq a b)
  select : ∀ a s b, Rel Eq (L.select a s b) (L.select a s b)

theorem Rel.addRipple : ∀ (x y : SInt) (c : Wire), Rel Eq (addRipple x y c) (addRipple x y c)
  | [], _, _ => Rel.pure rfl
  | [a], y, c => Rel.bindEq (Rel.xorG _ _) fun _ => Rel.bindEq (Rel.xorG _ _) fun _ => Rel.pure rfl
  | a :: a' :: as, y, c =>
    Rel.bindEq (Rel.xorG _ _) fun _ => Rel.bindEq (Rel.xorG _ _) fun _ => Rel.bindEq (Rel.xorG _ _) fun _ =>
      Rel.bindEq (Rel.andG _ _) fun _ => Rel.bindEq (Rel.xorG _ _) fun _ =>
        Rel.bindEq (Rel.addRipple (a' :: as) _ _) fun _ => Rel.pure rfl

theorem Rel.subRipple : ∀ (x y : SInt) (c : Wire), Rel Eq (subRipple x y c) (subRipple x y c)
  | [], _, _ => Rel.pure rfl
  | [a], y, c => Rel.bindEq (Rel.xorG _ _) fun _ => Rel.bindEq (Rel.xorG _ _) fun _ => Rel.pure rfl
  | a :: a' :: as, y, c =>
    Rel.bindEq (Rel.xorG _ _) fun _ => Rel.bindEq (Rel.xorG _ _) fun _ => Rel.bindEq (Rel.xorG _ _) fun _ =>
      Rel.bindEq (Rel.andG _ _) fun _ => Rel.bindEq (Rel.xorG _ _) fun _ =>
        Rel.bindEq (Rel.subRipple (a' :: as) _ _) fun _ => Rel.pure rfl

theorem Rel.selBits (s : Wire) : ∀ x y : SInt, Rel Eq (selBits s x y) (selBits s x y)
  | [], _ => Rel.pure rfl
  | _ :: _, [] => Rel.pure rfl
  | a :: as, b :: bs =>
    Rel.bindEq (Rel.xorG _ _) fun _ => Rel.bindEq (Rel.andG _ _) fun _ => Rel.bindEq (Rel.xorG _ _) fun _ =>
      Rel.bindEq (Rel.selBits s as bs) fun _ => Rel.pure rfl

theorem empLib_obl : LibObl empLib :=
  ⟨fun _ _ => Rel.addRipple _ _ _, fun _ _ => Rel.subRipple _ _ _,
    fun _ _ => Rel.bindEq (Rel.subRipple _ _ _) fun _ => Rel.notG _, fun _ _ _ => Rel.selBits _ _ _⟩

end Verif.Lemmas.Gate
