import Verif.Spec.Depends
import Verif.Model.GateOnline
import Verif.Lemmas.AESWires

/-! Which wires of a connection depend on an input: a Hoare logic over the sequences of backend operations. -/

namespace Verif.Lemmas.Gate
open Verif.Model Verif.Model.Gate Verif.Spec.Circuit

/-- The flags of the wires of a session. -/
def dv (s : Sess) : List Bool := depends s.program

/-- The wire depends on an input. -/
def dw (s : Sess) : Wire → Bool
  | .pub _ => false
  | .idx n => get (dv s) (n + 2)

/-- The flags match the wires. -/
def DV (s : Sess) : Prop := (dv s).length = s.n + 2 ∧ get (dv s) 0 = false ∧ get (dv s) 1 = false

def DExt (s t : Sess) : Prop := ∀ w, dw s w = true → dw t w = true

/-- Whenever `m` succeeds from `s`, the result satisfies `R`. -/
def Sec {α : Type} (s : Sess) (m : M α) (R : Sess → α → Prop) : Prop :=
  ∀ O a t, DV s → m O s = .ok (a, t) → DV t ∧ DExt s t ∧ R t a

/-- Bit `i` of an integer. -/
def bitAt (x : SInt) (i : Nat) : Wire := x.getD i (.pub false)

/-- Bit `i` depends on an input. -/
def dAt (s : Sess) (x : SInt) (i : Nat) : Prop := dw s (bitAt x i) = true

/-- All bits depend on an input. -/
def Dp (s : Sess) (x : SInt) : Prop := ∀ w ∈ x, dw s w = true

theorem DExt.refl (s : Sess) : DExt s s := fun _ h => h
theorem DExt.trans {s t u : Sess} (h : DExt s t) (h' : DExt t u) : DExt s u := fun w x => h' w (h w x)

theorem Dp.mono {s t : Sess} (e : DExt s t) {x : SInt} (h : Dp s x) : Dp t x := fun w hw => e w (h w hw)
theorem dAt.mono {s t : Sess} (e : DExt s t) {x : SInt} {i : Nat} (h : dAt s x i) : dAt t x i := e _ h

theorem Dp.nil {s : Sess} : Dp s [] := fun _ h => by cases h
theorem Dp.append {s : Sess} {x y : SInt} (h : Dp s x) (h' : Dp s y) : Dp s (x ++ y) := fun w hw => by
  rcases List.mem_append.mp hw with hw | hw
  · exact h w hw
  · exact h' w hw
theorem Dp.sub {s : Sess} {x y : SInt} (h : Dp s x) (hs : ∀ w ∈ y, w ∈ x) : Dp s y := fun w hw => h w (hs w hw)
theorem Dp.drop {s : Sess} {x : SInt} (h : Dp s x) (n : Nat) : Dp s (x.drop n) := h.sub fun _ => List.mem_of_mem_drop
theorem Dp.take {s : Sess} {x : SInt} (h : Dp s x) (n : Nat) : Dp s (x.take n) := h.sub fun _ => List.mem_of_mem_take
theorem Dp.reverse {s : Sess} {x : SInt} (h : Dp s x) : Dp s x.reverse := h.sub fun _ => List.mem_reverse.mp

theorem Dp.at {s : Sess} {x : SInt} (h : Dp s x) {i : Nat} (hi : i < x.length) : dAt s x i := by
  unfold dAt bitAt
  rw [List.getD_eq_getElem?_getD, List.getElem?_eq_getElem hi]
  exact h _ (List.getElem_mem hi)

theorem Dp.of_at {s : Sess} {x : SInt} (h : ∀ i < x.length, dAt s x i) : Dp s x := by
  intro w hw
  obtain ⟨i, hi, rfl⟩ := List.getElem_of_mem hw
  have := h i hi
  unfold dAt bitAt at this
  rwa [List.getD_eq_getElem?_getD, List.getElem?_eq_getElem hi] at this

theorem dAt_append_left {s : Sess} {x y : SInt} {i : Nat} (hi : i < x.length) : dAt s (x ++ y) i ↔ dAt s x i := by
  unfold dAt bitAt
  simp only [List.getD_eq_getElem?_getD]
  rw [List.getElem?_append_left hi]

theorem dAt_append_right {s : Sess} {x y : SInt} {i : Nat} (hi : x.length ≤ i) : dAt s (x ++ y) i ↔ dAt s y (i - x.length) := by
  unfold dAt bitAt
  simp only [List.getD_eq_getElem?_getD]
  rw [List.getElem?_append_right hi]

theorem dAt_lt {s : Sess} {x : SInt} {i : Nat} (h : dAt s x i) : i < x.length := by
  rcases Nat.lt_or_ge i x.length with hn | hn
  · exact hn
  exfalso
  unfold dAt bitAt at h
  rw [List.getD_eq_getElem?_getD, List.getElem?_eq_none (by omega)] at h
  cases h

/-! ### The logic -/

theorem Sec.pure {α : Type} {s : Sess} {a : α} {R : Sess → α → Prop} (h : R s a) : Sec s (Pure.pure a : M α) R := by
  intro O b t hs e
  cases e
  exact ⟨hs, DExt.refl s, h⟩

theorem Sec.bind {α β : Type} {s : Sess} {m : M α} {f : α → M β} {R : Sess → α → Prop} {S : Sess → β → Prop} (h : Sec s m R)
    (hf : ∀ a t, DExt s t → R t a → Sec t (f a) S) : Sec s (m >>= f) S := by
  intro O b u hs e
  have e' : (match m O s with | .ok (a, s1) => f a O s1 | .error x => .error x) = Except.ok (b, u) := e
  cases hm : m O s with
  | error x => rw [hm] at e'; cases e'
  | ok p =>
    obtain ⟨a, t⟩ := p
    rw [hm] at e'
    obtain ⟨h1, h2, h3⟩ := h O a t hs hm
    obtain ⟨h4, h5, h6⟩ := hf a t h2 h3 O b u h1 e'
    exact ⟨h4, h2.trans h5, h6⟩

theorem Sec.fail {α : Type} {s : Sess} {e : Fault} {R : Sess → α → Prop} : Sec s (fail e : M α) R := by
  intro O a t _ h
  cases h

theorem Sec.mono {α : Type} {s : Sess} {m : M α} {R S : Sess → α → Prop} (h : Sec s m R) (hi : ∀ t a, DExt s t → R t a → S t a) : Sec s m S := by
  intro O a t hs e
  obtain ⟨h1, h2, h3⟩ := h O a t hs e
  exact ⟨h1, h2, hi t a h2 h3⟩

theorem Sec.lift {α : Type} {s : Sess} {r : Res α} {R : Sess → α → Prop} (h : ∀ a, r = .ok a → R s a) : Sec s (lift r) R := by
  intro O a t hs e
  cases r with
  | error x => cases e
  | ok b => cases e; exact ⟨hs, DExt.refl _, h _ rfl⟩

theorem Sec.foldlM {α ι : Type} {f : α → ι → M α} {R : Sess → α → Prop} (h : ∀ s a i, R s a → Sec s (f a i) R) (l : List ι) :
    ∀ {s : Sess} {a : α}, R s a → Sec s (l.foldlM f a) R := by
  induction l with
  | nil => intro s a r; exact Sec.pure r
  | cons i l ih =>
    intro s a r
    simp only [List.foldlM_cons]
    exact Sec.bind (h s a i r) fun a' t _ r' => ih r'

theorem Sec.foldRange {α β : Type} {f : α → Nat → M α} {g : β → Nat → β} {R : Nat → Sess → α → β → Prop} (n : Nat)
    (h : ∀ s a b i, i < n → R i s a b → Sec s (f a i) (fun t a' => R (i + 1) t a' (g b i))) :
    ∀ {s : Sess} {a : α} {b : β}, R 0 s a b → Sec s ((List.range n).foldlM f a) (fun t a' => R n t a' ((List.range n).foldl g b)) := by
  have aux : ∀ (m i : Nat), i + m ≤ n → ∀ {s : Sess} {a : α} {b : β}, R i s a b →
      Sec s ((List.range' i m).foldlM f a) (fun t a' => R (i + m) t a' ((List.range' i m).foldl g b)) := by
    intro m
    induction m with
    | zero => intro i _ s a b r; exact Sec.pure r
    | succ m ih =>
      intro i hi s a b r
      simp only [List.range'_succ, List.foldlM_cons, List.foldl_cons]
      refine Sec.bind (h s a b i (by omega) r) fun a' t _ r' => ?_
      have := ih (i + 1) (by omega) r'
      rwa [show i + 1 + m = i + (m + 1) by omega] at this
  intro s a b r
  have := aux n 0 (by omega) r
  simpa only [Nat.zero_add, List.range_eq_range'] using this

/-! ### Operations -/

theorem dv_cons (e : Ev) (evs : List Ev) (n m : Nat) : dv ⟨e :: evs, n⟩ = (evOps e).foldl dependsNext (dv ⟨evs, m⟩) := by
  simp only [dv, depends, Sess.program, List.reverse_cons, List.flatMap_append, List.foldl_append, List.flatMap_cons, List.flatMap_nil,
    List.append_nil]

theorem dv_empty : DV {} := ⟨rfl, rfl, rfl⟩

theorem get_app {l r : List Bool} {i : Nat} (h : i < l.length) : get (l ++ r) i = get l i := by
  simp only [Verif.Spec.Circuit.get, List.getD_eq_getElem?_getD, List.getElem?_append_left h]

theorem get_true {l : List Bool} {i : Nat} (h : get l i = true) : i < l.length := by
  rcases Nat.lt_or_ge i l.length with hn | hn
  · exact hn
  exfalso
  rw [Verif.Spec.Circuit.get, List.getD_eq_getElem?_getD, List.getElem?_eq_none (by omega)] at h
  cases h

theorem dv_ext {s t : Sess} {r : List Bool} (hs : DV s) (h : dv t = dv s ++ r) (hn : t.n = s.n + r.length) : DV t ∧ DExt s t := by
  refine ⟨⟨?_, ?_, ?_⟩, fun w hw => ?_⟩
  · rw [h, List.length_append, hs.1, hn]; omega
  · rw [h, get_app (by rw [hs.1]; omega)]; exact hs.2.1
  · rw [h, get_app (by rw [hs.1]; omega)]; exact hs.2.2
  · cases w with
    | pub b => cases hw
    | idx k =>
      have hw : get (dv s) (k + 2) = true := hw
      show get (dv t) (k + 2) = true
      rw [h, get_app (get_true hw)]
      exact hw

theorem dw_no {s : Sess} (hs : DV s) (w : Wire) : get (dv s) (wireNo w) = dw s w := by
  cases w with
  | pub b => cases b <;> simp [wireNo, dw, hs.2.1, hs.2.2]
  | idx n => rfl

theorem Sec.gate {s : Sess} {e : Ev} {op : Op} {b : Bool} (he : evOps e = [op]) (hb : DV s → dependsNext (dv s) op = dv s ++ [b]) :
    Sec s (gate e) (fun t w => dw t w = b) := by
  intro O a t hs h
  cases h
  have hw : dv ⟨e :: s.evs, s.n + 1⟩ = dv s ++ [b] := by
    rw [dv_cons _ _ _ s.n, he]
    simp only [List.foldl_cons, List.foldl_nil]
    exact hb hs
  obtain ⟨h1, h2⟩ := dv_ext hs hw rfl
  refine ⟨h1, h2, ?_⟩
  show get (dv _) (s.n + 2) = b
  rw [hw, ← hs.1]
  simp [Verif.Spec.Circuit.get]

theorem Sec.xorG {s : Sess} (a b : Wire) : Sec s (xorG a b) (fun t w => dw t w = (dw s a || dw s b)) :=
  Sec.gate rfl fun hs => by rw [dependsNext, dw_no hs, dw_no hs]

theorem Sec.andG {s : Sess} (a b : Wire) : Sec s (andG a b) (fun t w => dw t w = (dw s a && dw s b)) :=
  Sec.gate rfl fun hs => by rw [dependsNext, dw_no hs, dw_no hs]

theorem Sec.notG {s : Sess} (a : Wire) : Sec s (notG a) (fun t w => dw t w = dw s a) :=
  Sec.gate rfl fun hs => by rw [dependsNext, dw_no hs]

theorem Sec.reveal {s : Sess} (p : Party) (ws : SInt) : Sec s (reveal p ws) (fun _ _ => True) := by
  intro O a t hs h
  cases h
  have hw : dv ⟨.reveal p ws :: s.evs, s.n⟩ = dv s ++ [] := by
    rw [dv_cons _ _ _ s.n, List.append_nil]; rfl
  obtain ⟨h1, h2⟩ := dv_ext hs hw rfl
  exact ⟨h1, h2, trivial⟩

theorem feed_flags (f : List Bool) (bits : List Bool) (op : Bool → Op) (hop : ∀ f b, dependsNext f (op b) = f ++ [true]) :
    (bits.map op).foldl dependsNext f = f ++ List.replicate bits.length true := by
  induction bits generalizing f with
  | nil => simp
  | cons b bits ih =>
    simp only [List.map_cons, List.foldl_cons, hop, ih, List.length_cons, List.replicate_succ, List.append_assoc, List.cons_append,
      List.nil_append]

theorem Sec.feed {s : Sess} {p : Party} (hp : p ≠ .pub) (bits : List Bool) :
    Sec s (feed p bits) (fun t x => x.length = bits.length ∧ Dp t x) := by
  intro O a t hs h
  cases h
  have hw : dv ⟨.feed p bits :: s.evs, s.n + bits.length⟩ = dv s ++ List.replicate bits.length true := by
    rw [dv_cons _ _ _ s.n]
    cases p with
    | pub => exact absurd rfl hp
    | alice => exact feed_flags _ _ _ fun _ _ => rfl
    | bob => exact feed_flags _ _ _ fun _ _ => rfl
  obtain ⟨h1, h2⟩ := dv_ext hs hw (by simp)
  refine ⟨h1, h2, by simp, fun w hm => ?_⟩
  obtain ⟨k, hk, rfl⟩ := List.mem_map.mp hm
  rw [List.mem_range'_1] at hk
  show get (dv _) (k + 2) = true
  rw [hw, Verif.Spec.Circuit.get, List.getD_eq_getElem?_getD, List.getElem?_append_right (by rw [hs.1]; omega),
    List.getElem?_replicate, if_pos (by rw [hs.1]; omega)]
  rfl

/-! ### Integers -/

theorem bitAt_cons_zero (a : Wire) (x : SInt) : bitAt (a :: x) 0 = a := rfl
theorem bitAt_cons_succ (a : Wire) (x : SInt) (i : Nat) : bitAt (a :: x) (i + 1) = bitAt x i := rfl
theorem bitAt_nil (i : Nat) : bitAt [] i = .pub false := rfl

theorem Sec.xorI : ∀ {s : Sess} (x y : SInt), Sec s (xorI x y) (fun t r => r.length = min x.length y.length
    ∧ ∀ i, i < min x.length y.length → dAt s x i ∨ dAt s y i → dAt t r i) := by
  intro s x
  induction x generalizing s with
  | nil => intro y; exact Sec.pure ⟨by simp, fun i hi => by simp at hi⟩
  | cons a x ih =>
    intro y
    cases y with
    | nil => exact Sec.pure ⟨by simp, fun i hi => by simp at hi⟩
    | cons b y =>
      refine Sec.bind (Sec.xorG a b) fun c t e hc => ?_
      refine Sec.bind (ih y) fun r u e' hr => Sec.pure ⟨?_, fun i hi h => ?_⟩
      · simp only [List.length_cons, hr.1]; omega
      · cases i with
        | zero =>
          refine e' c ?_
          rw [hc]
          exact Bool.or_eq_true_iff.mpr h
        | succ i =>
          refine hr.2 i (by simp only [List.length_cons] at hi; omega) ?_
          rcases h with h | h
          · exact Or.inl (dAt.mono e h)
          · exact Or.inr (dAt.mono e h)

theorem Sec.andI : ∀ {s : Sess} (x y : SInt), Sec s (andI x y) (fun t r => r.length = min x.length y.length
    ∧ ∀ i, i < min x.length y.length → dAt s x i → dAt s y i → dAt t r i) := by
  intro s x
  induction x generalizing s with
  | nil => intro y; exact Sec.pure ⟨by simp, fun i hi => by simp at hi⟩
  | cons a x ih =>
    intro y
    cases y with
    | nil => exact Sec.pure ⟨by simp, fun i hi => by simp at hi⟩
    | cons b y =>
      refine Sec.bind (Sec.andG a b) fun c t e hc => ?_
      refine Sec.bind (ih y) fun r u e' hr => Sec.pure ⟨?_, fun i hi h h' => ?_⟩
      · simp only [List.length_cons, hr.1]; omega
      · cases i with
        | zero =>
          refine e' c ?_
          rw [hc]
          exact (Bool.and_eq_true _ _).mpr ⟨h, h'⟩
        | succ i =>
          exact hr.2 i (by simp only [List.length_cons] at hi; omega) (dAt.mono e h) (dAt.mono e h')

/-- The operators pass on the dependence on inputs. -/
structure LibDep (L : Lib) : Prop where
  add : ∀ s a b, a.length = b.length →
    Sec s (L.add a b) (fun t r => r.length = a.length ∧ ∀ i, dAt s a i ∨ dAt s b i → dAt t r i)
  sub : ∀ s a b, a.length = b.length → Sec s (L.sub a b) (fun _ r => r.length = a.length)
  geq : ∀ s a b, Sec s (L.geq a b) (fun _ _ => True)
  select : ∀ s a w b, a.length = b.length → Sec s (L.select a w b) (fun t r => r.length = a.length ∧ ∀ i, dAt s a i → dAt t r i)

theorem Sec.addRipple : ∀ {s : Sess} (a b : SInt) (c : Wire), a.length = b.length →
    Sec s (addRipple a b c) (fun t r => r.length = a.length ∧ ∀ i, dAt s a i ∨ dAt s b i → dAt t r i) := by
  intro s a
  induction a generalizing s with
  | nil =>
    intro b c hl
    refine Sec.pure ⟨rfl, fun i h => ?_⟩
    have hb : b = [] := List.length_eq_zero_iff.mp hl.symm
    subst hb
    rcases h with h | h <;> cases h
  | cons a as ih =>
    intro b c hl
    cases b with
    | nil => cases hl
    | cons b bs =>
      simp only [List.length_cons, Nat.add_right_cancel_iff] at hl
      cases as with
      | nil =>
        have hb : bs = [] := List.length_eq_zero_iff.mp hl.symm
        subst hb
        unfold Gate.addRipple
        refine Sec.bind (Sec.xorG _ _) fun t u e ht => ?_
        refine Sec.bind (Sec.xorG _ _) fun d u' e' hd => Sec.pure ⟨rfl, fun i h => ?_⟩
        cases i with
        | zero =>
          show dw u' d = true
          rw [hd, ht]
          rcases h with h | h
          · rw [e a h, Bool.or_true]
          · have h : dw s b = true := h
            show (dw s c || dw s b || dw u a) = true
            rw [h, Bool.or_true, Bool.true_or]
        | succ i => rcases h with h | h <;> cases h
      | cons a' as' =>
        unfold Gate.addRipple
        refine Sec.bind (Sec.xorG a c) fun axc u1 e1 h1 => ?_
        refine Sec.bind (Sec.xorG b c) fun bxc u2 e2 h2 => ?_
        refine Sec.bind (Sec.xorG a bxc) fun d u3 e3 h3 => ?_
        refine Sec.bind (Sec.andG axc bxc) fun t u4 e4 h4 => ?_
        refine Sec.bind (Sec.xorG c t) fun c' u5 e5 h5 => ?_
        refine Sec.bind (ih bs c' hl) fun r u6 e6 h6 => Sec.pure ⟨?_, fun i h => ?_⟩
        · simp only [List.length_cons] at h6 ⊢; rw [h6.1]
        · cases i with
          | zero =>
            refine (e4.trans (e5.trans e6)) d ?_
            rw [h3]
            rcases h with h | h
            · rw [(e1.trans e2) a h, Bool.true_or]
            · have h : dw s b = true := h
              rw [h2, e1 b h, Bool.true_or, Bool.or_true]
          | succ i =>
            have ex := e1.trans (e2.trans (e3.trans (e4.trans e5)))
            refine h6.2 i ?_
            rcases h with h | h
            · exact Or.inl (dAt.mono ex h)
            · exact Or.inr (dAt.mono ex h)

theorem Sec.subRipple : ∀ {s : Sess} (a b : SInt) (c : Wire), Sec s (subRipple a b c) (fun _ r => r.length = a.length) := by
  intro s a
  induction a generalizing s with
  | nil => intro b c; exact Sec.pure rfl
  | cons a as ih =>
    intro b c
    cases as with
    | nil =>
      unfold Gate.subRipple
      exact Sec.bind (Sec.xorG _ _) fun t u e ht => Sec.bind (Sec.xorG _ _) fun d u' e' hd => Sec.pure rfl
    | cons a' as' =>
      unfold Gate.subRipple
      refine Sec.bind (Sec.xorG _ _) fun _ _ _ _ => Sec.bind (Sec.xorG _ _) fun _ _ _ _ => Sec.bind (Sec.xorG _ _) fun _ _ _ _ =>
        Sec.bind (Sec.andG _ _) fun _ _ _ _ => Sec.bind (Sec.xorG _ _) fun _ _ _ _ => Sec.bind (ih _ _) fun r _ _ h => Sec.pure ?_
      simp only [List.length_cons] at h ⊢; rw [h]

theorem Sec.selBits (w : Wire) : ∀ {s : Sess} (a b : SInt), a.length = b.length →
    Sec s (selBits w a b) (fun t r => r.length = a.length ∧ ∀ i, dAt s a i → dAt t r i) := by
  intro s a
  induction a generalizing s with
  | nil => intro b hl; exact Sec.pure ⟨rfl, fun i h => by cases h⟩
  | cons a as ih =>
    intro b hl
    cases b with
    | nil => cases hl
    | cons b bs =>
      simp only [List.length_cons, Nat.add_right_cancel_iff] at hl
      unfold Gate.selBits
      refine Sec.bind (Sec.xorG a b) fun t u1 e1 h1 => ?_
      refine Sec.bind (Sec.andG t w) fun t u2 e2 h2 => ?_
      refine Sec.bind (Sec.xorG a t) fun d u3 e3 h3 => ?_
      refine Sec.bind (ih bs hl) fun r u4 e4 h4 => Sec.pure ⟨?_, fun i h => ?_⟩
      · simp only [List.length_cons, h4.1]
      · cases i with
        | zero =>
          refine e4 d ?_
          rw [h3, (e1.trans e2) a h, Bool.true_or]
        | succ i => exact h4.2 i (dAt.mono (e1.trans (e2.trans e3)) h)

theorem empLib_dep : LibDep empLib where
  add _ a b h := Sec.addRipple a b _ h
  sub _ a b _ := Sec.subRipple a b _
  geq _ a b := Sec.bind (Sec.subRipple a b _) fun _ _ _ _ => (Sec.notG _).mono fun _ _ _ _ => trivial
  select _ a w b h := Sec.selBits w a b h

end Verif.Lemmas.Gate
