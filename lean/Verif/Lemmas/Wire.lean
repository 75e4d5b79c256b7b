import Mathlib.Tactic.ByContra
import Verif.Model.Wire
import Verif.Spec.Waiting

/-! # Two parties that wait for each other (C93) -/

namespace Verif.Lemmas.Wire

open Verif.Model.Wire Verif.Spec

/-! ### Step relations in which two different steps can be exchanged -/

section
variable {α : Type} {R : α → α → Prop}

theorem Steps.trans {m n : Nat} {s t u : α} (h : Steps R m s t) (g : Steps R n t u) : Steps R (m + n) s u := by
  induction h with
  | zero s => simpa using g
  | succ h _ ih => rw [Nat.add_right_comm]; exact .succ h (ih g)

theorem Steps.single {s t : α} (h : R s t) : Steps R 1 s t := .succ h (.zero t)

def Diamond (R : α → α → Prop) : Prop := ∀ s t u, R s t → R s u → t = u ∨ ∃ v, R t v ∧ R u v

theorem strip (hd : Diamond R) {n : Nat} : ∀ {s s' t : α}, Steps R n s t → (∀ u, ¬ R t u) → R s s' →
    ∃ k, n = k + 1 ∧ Steps R k s' t := by
  induction n with
  | zero => intro s s' t h ht hr; cases h; exact absurd hr (ht _)
  | succ n ih =>
    intro s s' t h ht hr
    cases h with
    | succ h r =>
      rcases hd _ _ _ hr h with e | ⟨v, hv, hu⟩
      · subst e; exact ⟨n, rfl, r⟩
      · obtain ⟨k, hk, hr'⟩ := ih r ht hu
        subst hk
        exact ⟨k + 1, rfl, .succ hv hr'⟩

theorem strip_steps (hd : Diamond R) {n m : Nat} {s s' t : α} (h : Steps R n s t) (ht : ∀ u, ¬ R t u)
    (g : Steps R m s s') : ∃ k, Steps R k s' t := by
  induction g generalizing n with
  | zero s => exact ⟨n, h⟩
  | succ hr _ ih =>
    obtain ⟨k, _, hk⟩ := strip hd h ht hr
    exact ih hk
end

/-! ### The same without buffers -/

/-- Bytes appended on one connection. -/
def app (f : Chan → List String) (c : Chan) (x : List String) : Chan → List String := upd f c (f c ++ x)

/-- Bytes put in front on one connection. -/
def prep (f : Chan → List String) (c : Chan) (x : List String) : Chan → List String := upd f c (x ++ f c)

theorem app_prep (f : Chan → List String) (c d : Chan) (x y : List String) :
    app (prep f c x) d y = prep (app f d y) c x := by
  funext e
  by_cases h : c = d <;> by_cases h1 : e = c <;> by_cases h2 : e = d <;> simp_all [app, prep, upd]

theorem prep_inj {f g : Chan → List String} {c : Chan} {x : List String} (h : prep f c x = prep g c x) : f = g := by
  funext e
  have := congrFun h e
  by_cases h1 : e = c <;> simp_all [prep, upd]

theorem app_nil (f : Chan → List String) (c : Chan) : app f c [] = f := by
  funext e; by_cases h : e = c <;> simp_all [app, upd]

theorem prep_nil (f : Chan → List String) (c : Chan) : prep f c [] = f := by
  funext e; by_cases h : e = c <;> simp_all [prep, upd]

theorem app_app (f : Chan → List String) (c : Chan) (x y : List String) : app (app f c x) c y = app f c (x ++ y) := by
  funext e; by_cases h : e = c <;> simp_all [app, upd]

theorem prep_prep (f : Chan → List String) (c : Chan) (x y : List String) : prep (prep f c y) c x = prep f c (x ++ y) := by
  funext e; by_cases h : e = c <;> simp_all [prep, upd]

theorem app_empty (c : Chan) (x : List String) : app (fun _ => []) c x = prep (fun _ => []) c x := by
  funext e; by_cases h : e = c <;> simp_all [app, prep, upd]

abbrev Net := Chan → List String

inductive EAct : List Act → Net → Net → List Act → Net → Net → Prop
  | send (c : Chan) (l : String) (n : Nat) (r : List Act) (o i : Net) :
      EAct (.send c l n :: r) o i r (app o c (List.replicate n l)) i
  | flush (c : Chan) (r : List Act) (o i : Net) : EAct (.flush c :: r) o i r o i
  | recv (c : Chan) (l : String) (n : Nat) (r : List Act) (o i i' : Net) (h : i = prep i' c (List.replicate n l)) :
      EAct (.recv c l n :: r) o i r o i'

structure EC where
  a : List Act
  b : List Act
  ab : Net
  ba : Net

inductive EStep : EC → EC → Prop
  | left {a b a' : List Act} {ab ba ab' ba' : Net} (h : EAct a ab ba a' ab' ba') : EStep ⟨a, b, ab, ba⟩ ⟨a', b, ab', ba'⟩
  | right {a b b' : List Act} {ab ba ab' ba' : Net} (h : EAct b ba ab b' ba' ab') : EStep ⟨a, b, ab, ba⟩ ⟨a, b', ab', ba'⟩
  | meet (m : Meet) (a b : List Act) (ab ba : Net) : EStep ⟨.meet m :: a, .meet m :: b, ab, ba⟩ ⟨a, b, ab, ba⟩

theorem EAct.det {a a1 a2 : List Act} {o i o1 i1 o2 i2 : Net} (h : EAct a o i a1 o1 i1) (g : EAct a o i a2 o2 i2) :
    a1 = a2 ∧ o1 = o2 ∧ i1 = i2 := by
  cases h with
  | send => cases g; exact ⟨rfl, rfl, rfl⟩
  | flush => cases g; exact ⟨rfl, rfl, rfl⟩
  | recv c l n r o i i' h =>
    cases g with
    | recv _ _ _ _ _ _ i'' h' => exact ⟨rfl, rfl, prep_inj (h.symm.trans h')⟩

theorem EAct.comm {a a1 b b1 : List Act} {x y x1 y1 x2 y2 : Net} (h : EAct a x y a1 x1 y1) (g : EAct b y x b1 y2 x2) :
    ∃ x3 y3, EAct b y1 x1 b1 y3 x3 ∧ EAct a x2 y2 a1 x3 y3 := by
  cases h with
  | send c l n r =>
    cases g with
    | send c' l' n' r' => exact ⟨_, _, .send .., .send ..⟩
    | flush c' r' => exact ⟨_, _, .flush .., .send ..⟩
    | recv c' l' n' r' _ _ i' h' =>
      refine ⟨app x2 c (List.replicate n l), _, .recv _ _ _ _ _ _ _ ?_, .send ..⟩
      rw [h', app_prep]
  | flush c r =>
    cases g with
    | send c' l' n' r' => exact ⟨_, _, .send .., .flush ..⟩
    | flush c' r' => exact ⟨_, _, .flush .., .flush ..⟩
    | recv c' l' n' r' _ _ i' h' => exact ⟨_, _, .recv _ _ _ _ _ _ _ h', .flush ..⟩
  | recv c l n r _ _ i' h =>
    cases g with
    | send c' l' n' r' =>
      refine ⟨_, app y1 c' (List.replicate n' l'), .send .., .recv _ _ _ _ _ _ _ ?_⟩
      rw [h, app_prep]
    | flush c' r' => exact ⟨_, _, .flush .., .recv _ _ _ _ _ _ _ h⟩
    | recv c' l' n' r' _ _ i'' h' => exact ⟨_, _, .recv _ _ _ _ _ _ _ h', .recv _ _ _ _ _ _ _ h⟩

theorem diamond : Diamond EStep := by
  intro s t u h g
  cases h with
  | left h =>
    cases g with
    | left g => obtain ⟨rfl, rfl, rfl⟩ := h.det g; exact .inl rfl
    | right g =>
      obtain ⟨x, y, h1, h2⟩ := h.comm g
      exact .inr ⟨_, .right h1, .left h2⟩
    | meet => cases h
  | right h =>
    cases g with
    | left g =>
      obtain ⟨x, y, h1, h2⟩ := g.comm h
      exact .inr ⟨_, .left h2, .right h1⟩
    | right g => obtain ⟨rfl, rfl, rfl⟩ := h.det g; exact .inl rfl
    | meet => cases h
  | meet =>
    cases g with
    | left g => cases g
    | right g => cases g
    | meet => exact .inl rfl

def none' : Net := fun _ => []

/-- Without buffers the two parties get to the end and receive all that is sent. -/
def Fits (a b : List Act) : Prop := ∃ n, Steps EStep n ⟨a, b, none', none'⟩ ⟨[], [], none', none'⟩

theorem final_stuck (u : EC) : ¬ EStep ⟨[], [], none', none'⟩ u := by
  intro h
  cases h with
  | left h => cases h
  | right h => cases h

/-! ### From the unbuffered to the buffered parties -/

/-- Which buffers may hold bytes after the statements; `none` if the party waits on one connection while bytes for the other are in
the buffer. -/
def scan (i o : Bool) : List Act → Option (Bool × Bool)
  | [] => some (i, o)
  | .send .io _ _ :: r => scan true o r
  | .send .opt _ _ :: r => scan i true r
  | .flush .io :: r => scan false o r
  | .flush .opt :: r => scan i false r
  | .recv .io _ _ :: r => if o then none else scan false o r
  | .recv .opt _ _ :: r => if i then none else scan i false r
  | .meet _ :: r => if o then none else scan false o r

def Tidy (s : Side) : Prop :=
  ∃ i o, (s.pend .io ≠ [] → i = true) ∧ (s.pend .opt ≠ [] → o = true) ∧ scan i o s.todo = some (false, false)

theorem tidy_inc {s : Side} (f : Net) (h : Tidy s) : Tidy { s with inc := f } := h

theorem tidy_act {s t s' t' : Side} (h : act true s t = some (s', t')) (hs : Tidy s) (ht : Tidy t) :
    Tidy s' ∧ Tidy t' := by
  obtain ⟨todo, pend, inc⟩ := s
  obtain ⟨i, o, hi, ho, hsc⟩ := hs
  cases todo with
  | nil => simp [act] at h
  | cons x r =>
    cases x with
    | send c l n =>
      simp only [act, Option.some.injEq, Prod.mk.injEq] at h
      obtain ⟨rfl, rfl⟩ := h
      refine ⟨?_, ht⟩
      cases c
      · exact ⟨true, o, fun _ => rfl, by simpa [upd] using ho, by simpa [scan] using hsc⟩
      · exact ⟨i, true, by simpa [upd] using hi, fun _ => rfl, by simpa [scan] using hsc⟩
    | flush c =>
      simp only [act, push, Option.some.injEq, Prod.mk.injEq] at h
      obtain ⟨rfl, rfl⟩ := h
      refine ⟨?_, tidy_inc _ ht⟩
      cases c
      · exact ⟨false, o, by simp [upd], by simpa [upd] using ho, by simpa [scan] using hsc⟩
      · exact ⟨i, false, by simpa [upd] using hi, by simp [upd], by simpa [scan] using hsc⟩
    | recv c l n =>
      simp only [act, Bool.true_and] at h
      split at h
      · simp only [push, Option.some.injEq, Prod.mk.injEq] at h
        obtain ⟨rfl, rfl⟩ := h
        refine ⟨?_, tidy_inc _ ht⟩
        cases c
        · exact ⟨i, o, by simp [upd], by simpa [upd] using ho, hsc⟩
        · exact ⟨i, o, by simpa [upd] using hi, by simp [upd], hsc⟩
      · rename_i hp
        split at h
        · simp only [Option.some.injEq, Prod.mk.injEq] at h
          obtain ⟨rfl, rfl⟩ := h
          refine ⟨?_, ht⟩
          have hp' : pend c = [] := by simpa using hp
          cases c
          · cases o <;> simp only [scan, if_true, Bool.false_eq_true, if_false, reduceCtorEq] at hsc
            exact ⟨false, false, fun h => absurd hp' h, ho, hsc⟩
          · cases i <;> simp only [scan, if_true, Bool.false_eq_true, if_false, reduceCtorEq] at hsc
            exact ⟨false, false, hi, fun h => absurd hp' h, hsc⟩
        · cases h
    | meet m =>
      simp only [act] at h
      split at h
      · simp only [push, Option.some.injEq, Prod.mk.injEq] at h
        obtain ⟨rfl, rfl⟩ := h
        exact ⟨⟨i, o, by simp [upd], by simpa [upd] using ho, hsc⟩, tidy_inc _ ht⟩
      · cases h

theorem tidy_step {p q : Side × Side} (h : Step true p q) (hp : Tidy p.1 ∧ Tidy p.2) : Tidy q.1 ∧ Tidy q.2 := by
  have hm : ∀ (s : Side) (m : Meet) (a : List Act), s.todo = .meet m :: a → s.pend .io = [] → Tidy s →
      Tidy { s with todo := a } := by
    intro s m a e pe ⟨i, o, hi, ho, hsc⟩
    rw [e] at hsc
    cases o <;> simp only [scan, if_true, Bool.false_eq_true, if_false, reduceCtorEq] at hsc
    exact ⟨false, false, fun h => absurd pe h, ho, hsc⟩
  cases h with
  | left h => exact tidy_act h hp.1 hp.2
  | right h => exact (tidy_act h hp.2 hp.1).symm
  | meet hs ht ps pt => exact ⟨hm _ _ _ hs ps hp.1, hm _ _ _ ht pt hp.2⟩

/-- The unbuffered state that belongs to a buffered one. -/
def flat (p : Side × Side) : EC :=
  ⟨p.1.todo, p.2.todo, fun c => p.2.inc c ++ p.1.pend c, fun c => p.1.inc c ++ p.2.pend c⟩

theorem act_flat {s t s' t' : Side} (h : act true s t = some (s', t')) :
    (s'.todo = s.todo ∧ t'.todo = t.todo ∧ (∀ c, t'.inc c ++ s'.pend c = t.inc c ++ s.pend c) ∧
      ∀ c, s'.inc c ++ t'.pend c = s.inc c ++ t.pend c) ∨
    (t'.todo = t.todo ∧ EAct s.todo (fun c => t.inc c ++ s.pend c) (fun c => s.inc c ++ t.pend c) s'.todo
      (fun c => t'.inc c ++ s'.pend c) (fun c => s'.inc c ++ t'.pend c)) := by
  obtain ⟨todo, pend, inc⟩ := s
  cases todo with
  | nil => simp [act] at h
  | cons x r =>
    cases x with
    | send c l n =>
      simp only [act, Option.some.injEq, Prod.mk.injEq] at h
      obtain ⟨rfl, rfl⟩ := h
      refine .inr ⟨rfl, ?_⟩
      have e : (fun d => t.inc d ++ upd pend c (pend c ++ List.replicate n l) d) =
          app (fun d => t.inc d ++ pend d) c (List.replicate n l) := by
        funext d; by_cases hd : d = c <;> simp_all [app, upd]
      simp only [e]
      exact .send ..
    | flush c =>
      simp only [act, push, Option.some.injEq, Prod.mk.injEq] at h
      obtain ⟨rfl, rfl⟩ := h
      refine .inr ⟨rfl, ?_⟩
      have e : (fun d => upd t.inc c (t.inc c ++ pend c) d ++ upd pend c [] d) = fun d => t.inc d ++ pend d := by
        funext d; by_cases hd : d = c <;> simp_all [upd]
      simp only [e]
      exact .flush ..
    | recv c l n =>
      simp only [act, Bool.true_and] at h
      split at h
      · simp only [push, Option.some.injEq, Prod.mk.injEq] at h
        obtain ⟨rfl, rfl⟩ := h
        refine .inl ⟨rfl, rfl, ?_, fun _ => rfl⟩
        intro d; by_cases hd : d = c <;> simp_all [upd]
      · split at h
        · rename_i hp htk
          simp only [Option.some.injEq, Prod.mk.injEq] at h
          obtain ⟨rfl, rfl⟩ := h
          refine .inr ⟨rfl, .recv _ _ _ _ _ _ _ ?_⟩
          funext d
          by_cases hd : d = c
          · subst hd
            simp only [prep, upd, if_true]
            rw [← htk, ← List.append_assoc, List.take_append_drop]
          · simp [prep, upd, hd]
        · cases h
    | meet m =>
      simp only [act] at h
      split at h
      · simp only [push, Option.some.injEq, Prod.mk.injEq] at h
        obtain ⟨rfl, rfl⟩ := h
        refine .inl ⟨rfl, rfl, ?_, fun _ => rfl⟩
        intro d; by_cases hd : d = Chan.io <;> simp_all [upd]
      · cases h

theorem flat_step {p q : Side × Side} (h : Step true p q) : flat q = flat p ∨ EStep (flat p) (flat q) := by
  cases h with
  | left h =>
    rcases act_flat h with ⟨h1, h2, h3, h4⟩ | ⟨h1, h2⟩
    · left
      simp only [flat, h1, h2, funext h3, funext h4]
    · right
      simp only [flat, h1]
      exact .left h2
  | right h =>
    rcases act_flat h with ⟨h1, h2, h3, h4⟩ | ⟨h1, h2⟩
    · left
      simp only [flat, h1, h2, funext h3, funext h4]
    · right
      simp only [flat, h1]
      exact .right h2
  | meet hs ht ps pt =>
    right
    simp only [flat, hs, ht]
    exact .meet ..

theorem flat_steps {n : Nat} {p q : Side × Side} (h : Steps (Step true) n p q) :
    ∃ m, Steps EStep m (flat p) (flat q) := by
  induction h with
  | zero s => exact ⟨0, .zero _⟩
  | succ h _ ih =>
    obtain ⟨m, hm⟩ := ih
    rcases flat_step h with e | e
    · rw [e] at hm; exact ⟨m, hm⟩
    · exact ⟨m + 1, .succ e hm⟩

theorem tidy_steps {n : Nat} {p q : Side × Side} (h : Steps (Step true) n p q) (hp : Tidy p.1 ∧ Tidy p.2) :
    Tidy q.1 ∧ Tidy q.2 := by
  induction h with
  | zero s => exact hp
  | succ h _ ih => exact ih (tidy_step h hp)

/-- A party that waits for the other holds nothing back. -/
theorem held {s t : Side} (hs : Tidy s) (h : act true s t = none) : ∀ c, s.pend c = [] := by
  obtain ⟨todo, pend, inc⟩ := s
  obtain ⟨i, o, hi, ho, hsc⟩ := hs
  have fin : ∀ {i' o' : Bool}, i' = false → o' = false → (pend .io ≠ [] → i' = true) → (pend .opt ≠ [] → o' = true) →
      ∀ c, pend c = [] := by
    intro i' o' e1 e2 h1 h2 c
    subst e1 e2
    cases c
    · by_contra hc; exact absurd (h1 hc) (by decide)
    · by_contra hc; exact absurd (h2 hc) (by decide)
  cases todo with
  | nil =>
    simp only [scan, Option.some.injEq, Prod.mk.injEq] at hsc
    exact fin hsc.1 hsc.2 hi ho
  | cons x r =>
    cases x with
    | send c l n => simp [act] at h
    | flush c => simp [act] at h
    | recv c l n =>
      simp only [act, Bool.true_and] at h
      split at h
      · cases h
      · rename_i hp
        have hp' : pend c = [] := by simpa using hp
        cases c
        · cases o <;> simp only [scan, if_true, Bool.false_eq_true, if_false, reduceCtorEq] at hsc
          intro c
          cases c
          · exact hp'
          · by_contra hc; exact absurd (ho hc) (by decide)
        · cases i <;> simp only [scan, if_true, Bool.false_eq_true, if_false, reduceCtorEq] at hsc
          intro c
          cases c
          · by_contra hc; exact absurd (hi hc) (by decide)
          · exact hp'
    | meet m =>
      simp only [act] at h
      split at h
      · cases h
      · rename_i hp
        have hp' : pend .io = [] := by simpa using hp
        cases o <;> simp only [scan, if_true, Bool.false_eq_true, if_false, reduceCtorEq] at hsc
        intro c
        cases c
        · exact hp'
        · by_contra hc; exact absurd (ho hc) (by decide)

theorem act_of_eact {s t : Side} {a : List Act} {x y : Net}
    (h : EAct s.todo (fun c => t.inc c ++ s.pend c) (fun c => s.inc c ++ t.pend c) a x y) (hs : ∀ c, s.pend c = [])
    (ht : ∀ c, t.pend c = []) : act true s t ≠ none := by
  obtain ⟨todo, pend, inc⟩ := s
  simp only at h hs
  cases h with
  | send => simp [act]
  | flush => simp [act]
  | recv c l n r _ _ i' h =>
    have h1 := congrFun h c
    simp only [ht, List.append_nil, prep, upd, if_true] at h1
    simp only [act, Bool.true_and, hs, List.isEmpty_nil, Bool.not_true, Bool.false_eq_true, if_false]
    have h2 : (inc c).take n = List.replicate n l := by
      rw [h1]
      simp
    rw [if_pos h2]
    simp

theorem progress {p : Side × Side} (ht : Tidy p.1 ∧ Tidy p.2) {k : Nat}
    (hk : Steps EStep k (flat p) ⟨[], [], none', none'⟩) : (p.1.Done ∧ p.2.Done) ∨ ∃ q, Step true p q := by
  obtain ⟨s, t⟩ := p
  rcases hA : act true s t with _ | ⟨s', t'⟩
  · rcases hB : act true t s with _ | ⟨t', s'⟩
    · have pA := held ht.1 hA
      have pB := held ht.2 hB
      generalize hq : (⟨[], [], none', none'⟩ : EC) = e at hk
      generalize hf : flat (s, t) = f at hk
      cases hk with
      | zero =>
        left
        have e := hf.trans hq.symm
        simp only [flat, EC.mk.injEq] at e
        obtain ⟨e1, e2, e3, e4⟩ := e
        refine ⟨⟨e1, pA, fun c => ?_⟩, ⟨e2, pB, fun c => ?_⟩⟩
        · exact (List.append_eq_nil_iff.mp (congrFun e4 c)).1
        · exact (List.append_eq_nil_iff.mp (congrFun e3 c)).1
      | succ h _ =>
        subst hf
        right
        generalize hf : flat (s, t) = f at h
        cases h with
        | left h =>
          simp only [flat, EC.mk.injEq] at hf
          obtain ⟨rfl, rfl, rfl, rfl⟩ := hf
          exact absurd hA (act_of_eact h pA pB)
        | right h =>
          simp only [flat, EC.mk.injEq] at hf
          obtain ⟨rfl, rfl, rfl, rfl⟩ := hf
          exact absurd hB (act_of_eact h pB pA)
        | meet m a b =>
          simp only [flat, EC.mk.injEq] at hf
          exact ⟨_, .meet hf.1 hf.2.1 (pA _) (pB _)⟩
    · exact .inr ⟨_, .right hB⟩
  · exact .inr ⟨_, .left hA⟩

/-! ### Every run is finite -/

def weight : List Act → Nat
  | [] => 0
  | .send _ _ _ :: r => 2 + weight r
  | _ :: r => 1 + weight r

def full (s : Side) : Nat := (if s.pend .io = [] then 0 else 1) + if s.pend .opt = [] then 0 else 1

def size (s : Side) : Nat := weight s.todo + full s

theorem size_act {auto : Bool} {s t s' t' : Side} (h : act auto s t = some (s', t')) : size s' < size s ∧ size t' = size t := by
  obtain ⟨todo, pend, inc⟩ := s
  cases todo with
  | nil => simp [act] at h
  | cons x r =>
    cases x with
    | send c l n =>
      simp only [act, Option.some.injEq, Prod.mk.injEq] at h
      obtain ⟨rfl, rfl⟩ := h
      refine ⟨?_, rfl⟩
      cases c <;> simp only [size, weight, full, upd, if_true, reduceCtorEq, if_false] <;> split <;> split <;> split <;> omega
    | flush c =>
      simp only [act, push, Option.some.injEq, Prod.mk.injEq] at h
      obtain ⟨rfl, rfl⟩ := h
      refine ⟨?_, rfl⟩
      cases c <;> simp only [size, weight, full, upd, if_true, reduceCtorEq, if_false] <;> split <;> split <;> omega
    | recv c l n =>
      simp only [act] at h
      split at h
      · rename_i hp
        simp only [push, Option.some.injEq, Prod.mk.injEq] at h
        obtain ⟨rfl, rfl⟩ := h
        refine ⟨?_, rfl⟩
        have hp' : pend c ≠ [] := by
          simp only [Bool.and_eq_true, Bool.not_eq_true', List.isEmpty_eq_false_iff] at hp
          exact hp.2
        cases c <;> simp only [size, full, upd, if_true, reduceCtorEq, if_false, hp'] <;> split <;> omega
      · split at h
        · simp only [Option.some.injEq, Prod.mk.injEq] at h
          obtain ⟨rfl, rfl⟩ := h
          refine ⟨?_, rfl⟩
          simp only [size, weight, full]; omega
        · cases h
    | meet m =>
      simp only [act] at h
      split at h
      · rename_i hp
        simp only [push, Option.some.injEq, Prod.mk.injEq] at h
        obtain ⟨rfl, rfl⟩ := h
        refine ⟨?_, rfl⟩
        have hp' : pend .io ≠ [] := by
          simp only [Bool.not_eq_true', List.isEmpty_eq_false_iff] at hp
          exact hp
        simp only [size, full, upd, if_true, reduceCtorEq, if_false, hp']; split <;> omega
      · cases h

theorem size_step {auto : Bool} {p q : Side × Side} (h : Step auto p q) : size q.1 + size q.2 < size p.1 + size p.2 := by
  cases h with
  | left h => have := size_act h; simp only; omega
  | right h => have := size_act h; simp only; omega
  | meet hs ht ps pt =>
    simp only [size, hs, ht, weight, full]; omega

theorem size_steps {auto : Bool} {n : Nat} {p q : Side × Side} (h : Steps (Step auto) n p q) :
    n + (size q.1 + size q.2) ≤ size p.1 + size p.2 := by
  induction h with
  | zero s => omega
  | succ h _ ih => have := size_step h; omega

theorem always_ends {a b : List Act} (hf : Fits a b) (ha : scan false false a = some (false, false))
    (hb : scan false false b = some (false, false)) :
    AlwaysEnds (Step true) (fun p => p.1.Done ∧ p.2.Done) (start a, start b) := by
  refine ⟨⟨size (start a) + size (start b), fun n t h => ?_⟩, fun n t h => ?_⟩
  · have := size_steps h
    simp only at this
    omega
  · have ti : Tidy t.1 ∧ Tidy t.2 := tidy_steps h
      ⟨⟨false, false, by simp [start], by simp [start], ha⟩, ⟨false, false, by simp [start], by simp [start], hb⟩⟩
    obtain ⟨m, hm⟩ := flat_steps h
    obtain ⟨n0, h0⟩ := hf
    have e : flat (start a, start b) = ⟨a, b, none', none'⟩ := rfl
    rw [e] at hm
    obtain ⟨k, hk⟩ := strip_steps diamond h0 final_stuck hm
    exact progress ti hk

end Verif.Lemmas.Wire
