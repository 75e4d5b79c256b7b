import Mathlib.Data.List.GetD
import Verif.Spec.Profile
import Verif.Lemmas.OfflineRel
import Verif.Lemmas.SHADigest
import Verif.Lemmas.Addmod
import Verif.Lemmas.AESCount

/-! The profile of the calls of a connection. -/

namespace Verif.Lemmas.Profile
open Verif.Model Verif.Model.Gate
open Verif.Spec.Circuit (Party)
open Verif.Spec.Profile (Item Cost)
open Verif.Lemmas.Gate (length_ofNat' length_ofBytes' plainTail_length bnBuffer_length)

/-- One operation. -/
def evCost : Ev → Cost
  | .feed .bob bits => Spec.Profile.feedBob bits
  | .feed p bits => Spec.Profile.feed p bits.length
  | .reveal p ws => Spec.Profile.opens p ws.length
  | .and _ _ => Spec.Profile.gates 1 0
  | .xor _ _ => Spec.Profile.gates 0 1
  | .not _ => Spec.Profile.gates 0 1

/-- All operations of a session, which are listed newest first. -/
def costOf : List Ev → Cost
  | [] => 0
  | e :: es => costOf es + evCost e

/-- If `m` succeeds, it has cost `c`, and its result is in `R`. -/
def Io {α : Type} (m : M α) (c : Cost) (R : α → Prop) : Prop :=
  ∀ O s a t, m O s = .ok (a, t) → costOf t.evs = costOf s.evs + c ∧ R a

theorem Io.pure {α : Type} {R : α → Prop} {a : α} (h : R a) : Io (Pure.pure a : M α) 0 R := by
  intro O s b t e
  cases e
  exact ⟨(add_zero _).symm, h⟩

theorem Io.bind {α β : Type} {m : M α} {f : α → M β} {c d : Cost} {R : α → Prop} {S : β → Prop} (h : Io m c R)
    (hf : ∀ a, R a → Io (f a) d S) : Io (m >>= f) (c + d) S := by
  intro O s b t e
  have e' : (match m O s with | .ok (a, s1) => f a O s1 | .error x => .error x) = Except.ok (b, t) := e
  cases hm : m O s with
  | error x => rw [hm] at e'; cases e'
  | ok p =>
    obtain ⟨a, s1⟩ := p
    rw [hm] at e'
    obtain ⟨e1, r1⟩ := h O s a s1 hm
    obtain ⟨e2, r2⟩ := hf a r1 O s1 b t e'
    exact ⟨by rw [e2, e1, add_assoc], r2⟩

theorem Io.fail {α : Type} {e : Fault} {c : Cost} {R : α → Prop} : Io (Gate.fail e : M α) c R := by
  intro O s a t h
  cases h

theorem Io.cast {α : Type} {m : M α} {c d : Cost} {R : α → Prop} (h : Io m c R) (e : c = d) : Io m d R := e ▸ h

theorem Io.mono {α : Type} {m : M α} {c : Cost} {R S : α → Prop} (h : Io m c R) (hi : ∀ a, R a → S a) : Io m c S :=
  fun O s a t e => ⟨(h O s a t e).1, hi a (h O s a t e).2⟩

theorem Io.lift {α : Type} (r : Res α) : Io (Gate.lift r) 0 (fun a => r = .ok a) := by
  intro O s a t e
  cases r with
  | error x => cases e
  | ok b => cases e; exact ⟨(add_zero _).symm, rfl⟩

theorem Io.feedA (bits : List Bool) : Io (Gate.feed .alice bits) (Spec.Profile.feed .alice bits.length) (fun x => x.length = bits.length) := by
  intro O s a t e
  cases e
  exact ⟨rfl, by simp⟩

theorem Io.feedB (bits : List Bool) : Io (Gate.feed .bob bits) (Spec.Profile.feedBob bits) (fun x => x.length = bits.length) := by
  intro O s a t e
  cases e
  exact ⟨rfl, by simp⟩

theorem Io.reveal (p : Party) (ws : SInt) : Io (Gate.reveal p ws) (Spec.Profile.opens p ws.length) (fun _ => True) := by
  intro O s a t e
  cases e
  exact ⟨rfl, trivial⟩

theorem Io.andG (a b : Wire) : Io (Gate.andG a b) (Spec.Profile.gates 1 0) (fun _ => True) := by
  intro O s a t e
  cases e
  exact ⟨rfl, trivial⟩

theorem Io.xorG (a b : Wire) : Io (Gate.xorG a b) (Spec.Profile.gates 0 1) (fun _ => True) := by
  intro O s a t e
  cases e
  exact ⟨rfl, trivial⟩

theorem Io.notG (a : Wire) : Io (Gate.notG a) (Spec.Profile.gates 0 1) (fun _ => True) := by
  intro O s a t e
  cases e
  exact ⟨rfl, trivial⟩

@[simp] theorem gates_add (a b c d : Nat) : Spec.Profile.gates a b + Spec.Profile.gates c d = Spec.Profile.gates (a + c) (b + d) := rfl

theorem gates_zero : (0 : Cost) = Spec.Profile.gates 0 0 := rfl

@[simp] theorem gates_nsmul (n a b : Nat) : n • Spec.Profile.gates a b = Spec.Profile.gates (n * a) (n * b) := by
  induction n with
  | zero => rw [zero_nsmul, Nat.zero_mul, Nat.zero_mul]; rfl
  | succ n ih => rw [succ_nsmul, ih, gates_add, Nat.succ_mul, Nat.succ_mul]

theorem gates_congr {a b c d : Nat} (h1 : a = c) (h2 : b = d) : Spec.Profile.gates a b = Spec.Profile.gates c d := by rw [h1, h2]

/-- Loops. -/
theorem Io.foldRange {α : Type} {I : Nat → α → Prop} {f : α → Nat → M α} {c : Cost} (n : Nat)
    (h : ∀ i < n, ∀ a, I i a → Io (f a i) c (I (i + 1))) {a : α} (h0 : I 0 a) : Io ((List.range n).foldlM f a) (n • c) (I n) := by
  have key : ∀ (m k : Nat), k + m = n → ∀ a, I k a → Io ((List.range' k m).foldlM f a) (m • c) (I n) := by
    intro m
    induction m with
    | zero =>
      intro k hk a hr
      rw [show k = n by omega] at hr
      rw [zero_nsmul]
      exact Io.pure hr
    | succ m ih =>
      intro k hk a hr
      rw [List.range'_succ, List.foldlM_cons, succ_nsmul']
      exact Io.bind (h k (by omega) a hr) fun a hr => ih (k + 1) (by omega) a hr
  rw [List.range_eq_range']
  exact key n 0 (by omega) a h0

theorem Io.foldlM {α ι : Type} {I : α → Prop} {f : α → ι → M α} {c : Cost} (h : ∀ a i, I a → Io (f a i) c I) (l : List ι) :
    ∀ {a : α}, I a → Io (l.foldlM f a) (l.length • c) I := by
  induction l with
  | nil => intro a hr; rw [List.length_nil, zero_nsmul]; exact Io.pure hr
  | cons i l ih =>
    intro a hr
    rw [List.foldlM_cons, List.length_cons, succ_nsmul']
    exact Io.bind (h a i hr) fun a hr => ih hr

/-! ### Integers -/

theorem Io.xorI : ∀ x y : SInt, Io (Gate.xorI x y) (Spec.Profile.gates 0 (min x.length y.length)) (fun z => z.length = min x.length y.length)
  | [], y => by rw [List.length_nil, Nat.zero_min]; exact Io.pure rfl
  | _ :: _, [] => by rw [List.length_nil, Nat.min_zero]; exact Io.pure rfl
  | a :: as, b :: bs => by
    refine Io.cast (Io.bind (Io.xorG a b) fun c _ => Io.bind (Io.xorI as bs) fun r hr => Io.pure ?_) ?_
    · simp only [List.length_cons, hr]; omega
    · rw [add_zero, gates_add]
      exact gates_congr rfl (by simp only [List.length_cons]; omega)

theorem Io.andI : ∀ x y : SInt, Io (Gate.andI x y) (Spec.Profile.gates (min x.length y.length) 0) (fun z => z.length = min x.length y.length)
  | [], y => by rw [List.length_nil, Nat.zero_min]; exact Io.pure rfl
  | _ :: _, [] => by rw [List.length_nil, Nat.min_zero]; exact Io.pure rfl
  | a :: as, b :: bs => by
    refine Io.cast (Io.bind (Io.andG a b) fun c _ => Io.bind (Io.andI as bs) fun r hr => Io.pure ?_) ?_
    · simp only [List.length_cons, hr]; omega
    · rw [add_zero, gates_add]
      exact gates_congr (by simp only [List.length_cons]; omega) rfl

/-- Operands of one length. -/
theorem Io.xorN {n : Nat} {x y : SInt} (hx : x.length = n) (hy : y.length = n) :
    Io (Gate.xorI x y) (Spec.Profile.gates 0 n) (fun z => z.length = n) := by
  have h := Io.xorI x y
  rwa [hx, hy, Nat.min_self] at h

theorem Io.andN {n : Nat} {x y : SInt} (hx : x.length = n) (hy : y.length = n) :
    Io (Gate.andI x y) (Spec.Profile.gates n 0) (fun z => z.length = n) := by
  have h := Io.andI x y
  rwa [hx, hy, Nat.min_self] at h

theorem length_shl (x : SInt) (k : Nat) : (shl x k).length = x.length := by
  unfold shl
  split
  · simp
  · simp; omega

theorem length_shr (x : SInt) (k : Nat) : (shr x k).length = x.length := by
  unfold shr
  split
  · simp
  · simp; omega

theorem Io.rrot {n : Nat} {x : SInt} (hx : x.length = n) (k : Nat) : Io (Gate.rrot x k) (Spec.Profile.gates 0 n) (fun z => z.length = n) :=
  Io.xorN (by rw [length_shr, hx]) (by rw [length_shl, hx])

theorem length_pubInt (n v : Nat) : (pubInt n v).length = n := by rw [pubInt, List.length_map, length_ofNat']

theorem length_concat (res : SInt) (ins : List SInt) : (Gate.concat res ins).length = res.length + (ins.map List.length).sum := by
  unfold Gate.concat
  induction ins generalizing res with
  | nil => rfl
  | cons x ins ih => rw [List.foldl_cons, ih, List.length_append, List.map_cons, List.sum_cons]; omega

theorem length_reverseConcat (res : SInt) (ins : List SInt) : (Gate.reverseConcat res ins).length = res.length + (ins.map List.length).sum := by
  unfold Gate.reverseConcat
  induction ins generalizing res with
  | nil => rfl
  | cons x ins ih => rw [List.foldl_cons, ih, List.length_append, List.map_cons, List.sum_cons]; omega

/-- The operators have the usual sizes; the result has the length of the first operand. -/
structure LibCost (L : Lib) : Prop where
  add : ∀ a b, Io (L.add a b) (Spec.Profile.adder a.length) (fun z => z.length = a.length)
  sub : ∀ a b, Io (L.sub a b) (Spec.Profile.adder a.length) (fun z => z.length = a.length)
  geq : ∀ a b, Io (L.geq a b) (Spec.Profile.adder a.length + Spec.Profile.gates 0 1) (fun _ => True)
  select : ∀ a s b, a.length = b.length → Io (L.select a s b) (Spec.Profile.select a.length) (fun z => z.length = a.length)

theorem adder_succ (n : Nat) : Spec.Profile.adder (n + 2) = Spec.Profile.gates 1 4 + Spec.Profile.adder (n + 1) :=
  gates_congr (show n + 2 - 1 = 1 + (n + 1 - 1) by omega)
    (show (if n + 2 = 0 then 0 else 4 * (n + 2 - 1) + 2) = 4 + (if n + 1 = 0 then 0 else 4 * (n + 1 - 1) + 2) by
      rw [if_neg (by omega), if_neg (by omega)]; omega)

theorem Io.addRipple : ∀ (a b : SInt) (c : Wire), Io (Gate.addRipple a b c) (Spec.Profile.adder a.length) (fun z => z.length = a.length)
  | [], _, _ => Io.pure rfl
  | [_], _, _ => Io.cast (Io.bind (Io.xorG _ _) fun _ _ => Io.bind (Io.xorG _ _) fun _ _ => Io.pure (by rfl)) rfl
  | a :: a' :: as, bs, c => by
    refine Io.cast (Io.bind (Io.xorG _ _) fun _ _ => Io.bind (Io.xorG _ _) fun _ _ => Io.bind (Io.xorG _ _) fun _ _ =>
      Io.bind (Io.andG _ _) fun _ _ => Io.bind (Io.xorG _ _) fun _ _ => Io.bind (Io.addRipple (a' :: as) _ _) fun r hr => Io.pure ?_) ?_
    · rw [List.length_cons, hr]; rfl
    · rw [add_zero, ← add_assoc, ← add_assoc, ← add_assoc, ← add_assoc]
      exact (adder_succ as.length).symm

theorem Io.subRipple : ∀ (a b : SInt) (c : Wire), Io (Gate.subRipple a b c) (Spec.Profile.adder a.length) (fun z => z.length = a.length)
  | [], _, _ => Io.pure rfl
  | [_], _, _ => Io.cast (Io.bind (Io.xorG _ _) fun _ _ => Io.bind (Io.xorG _ _) fun _ _ => Io.pure (by rfl)) rfl
  | a :: a' :: as, bs, c => by
    refine Io.cast (Io.bind (Io.xorG _ _) fun _ _ => Io.bind (Io.xorG _ _) fun _ _ => Io.bind (Io.xorG _ _) fun _ _ =>
      Io.bind (Io.andG _ _) fun _ _ => Io.bind (Io.xorG _ _) fun _ _ => Io.bind (Io.subRipple (a' :: as) _ _) fun r hr => Io.pure ?_) ?_
    · rw [List.length_cons, hr]; rfl
    · rw [add_zero, ← add_assoc, ← add_assoc, ← add_assoc, ← add_assoc]
      exact (adder_succ as.length).symm

theorem Io.selBits (s : Wire) : ∀ a b : SInt, a.length = b.length → Io (Gate.selBits s a b) (Spec.Profile.select a.length) (fun z => z.length = a.length)
  | [], [], _ => Io.pure rfl
  | a :: as, b :: bs, h => by
    refine Io.cast (Io.bind (Io.xorG _ _) fun _ _ => Io.bind (Io.andG _ _) fun _ _ => Io.bind (Io.xorG _ _) fun _ _ =>
      Io.bind (Io.selBits s as bs (by simpa using h)) fun r hr => Io.pure ?_) ?_
    · rw [List.length_cons, hr, List.length_cons]
    · rw [add_zero, ← add_assoc, ← add_assoc]
      exact gates_congr (show 0 + 1 + 0 + as.length = as.length + 1 by omega) (show 1 + 0 + 1 + 2 * as.length = 2 * (as.length + 1) by omega)

theorem empLib_cost : LibCost empLib :=
  ⟨fun _ _ => Io.addRipple _ _ _, fun _ _ => Io.subRipple _ _ _, fun _ _ => Io.bind (Io.subRipple _ _ _) fun _ _ => Io.notG _,
    fun _ _ _ h => Io.selBits _ _ _ h⟩

/-! ### SHA-256 -/

/-- A word. -/
abbrev W (x : SInt) : Prop := x.length = 32

/-- Eight words. -/
def W8 (l : List SInt) : Prop := l.length = 8 ∧ ∀ i < 8, W (l.getD i [])

theorem W8.bits {l : List SInt} (h : W8 l) : (l.map List.length).sum = 256 := by
  obtain ⟨h1, h2⟩ := h
  match l, h1 with
  | [a, b, c, d, e, f, g, h], _ =>
    have e0 := h2 0 (by omega); have e1 := h2 1 (by omega); have e2 := h2 2 (by omega); have e3 := h2 3 (by omega)
    have e4 := h2 4 (by omega); have e5 := h2 5 (by omega); have e6 := h2 6 (by omega); have e7 := h2 7 (by omega)
    simp only [List.getD_cons_zero, List.getD_cons_succ] at e0 e1 e2 e3 e4 e5 e6 e7
    simp only [List.map_cons, List.map_nil, List.sum_cons, List.sum_nil, e0, e1, e2, e3, e4, e5, e6, e7, Nat.reduceAdd]

theorem W8.mk8 {a b c d e f g h : SInt} (h0 : W a) (h1 : W b) (h2 : W c) (h3 : W d) (h4 : W e) (h5 : W f) (h6 : W g) (h7 : W h) :
    W8 [a, b, c, d, e, f, g, h] := by
  refine ⟨rfl, fun i hi => ?_⟩
  match i, hi with
  | 0, _ => exact h0
  | 1, _ => exact h1
  | 2, _ => exact h2
  | 3, _ => exact h3
  | 4, _ => exact h4
  | 5, _ => exact h5
  | 6, _ => exact h6
  | 7, _ => exact h7

theorem Io.smallSigma {x : SInt} (hx : W x) (a b c : Nat) : Io (Gate.smallSigma a b c x) (Spec.Profile.gates 0 128) W :=
  Io.cast (Io.bind (Io.rrot hx a) fun _ h1 => Io.bind (Io.rrot hx b) fun _ h2 => Io.bind (Io.xorN h1 h2) fun _ h3 =>
    Io.xorN h3 (by rw [length_shr, hx])) rfl

theorem Io.bigSigma {x : SInt} (hx : W x) (a b c : Nat) : Io (Gate.bigSigma a b c x) (Spec.Profile.gates 0 160) W :=
  Io.cast (Io.bind (Io.rrot hx a) fun _ h1 => Io.bind (Io.rrot hx b) fun _ h2 => Io.bind (Io.xorN h1 h2) fun _ h3 =>
    Io.bind (Io.rrot hx c) fun _ h4 => Io.xorN h3 h4) rfl

variable {L : Lib} (hL : LibCost L)
include hL

theorem LibCost.word {a : SInt} (h : W a) (b : SInt) : Io (L.add a b) (Spec.Profile.gates 31 126) W := by
  have e := hL.add a b
  rw [h] at e
  exact e

theorem io_schedule {w : List SInt} {j : Nat} (hj : j < 48) (hw : w.length = 16 + j ∧ ∀ i < 16 + j, W (w.getD i [])) :
    Io (scheduleStep L w j) (Spec.Profile.gates 93 634) (fun w => w.length = 16 + (j + 1) ∧ ∀ i < 16 + (j + 1), W (w.getD i [])) := by
  unfold scheduleStep
  refine Io.cast (Io.bind (Io.smallSigma (hw.2 _ (by omega)) _ _ _) fun s0 _ => Io.bind (Io.smallSigma (hw.2 _ (by omega)) _ _ _) fun s1 _ =>
    Io.bind (hL.word (hw.2 _ (by omega)) _) fun t ht => Io.bind (hL.word ht _) fun t ht => Io.bind (hL.word ht _) fun t ht => Io.pure ?_) rfl
  refine ⟨by rw [List.length_append, hw.1]; rfl, fun i hi => ?_⟩
  by_cases h : i < 16 + j
  · rw [List.getD_append _ _ _ _ (by rw [hw.1]; exact h)]
    exact hw.2 i h
  · rw [List.getD_append_right _ _ _ _ (by rw [hw.1]; omega), show i - w.length = 0 by rw [hw.1]; omega]
    exact ht

omit hL in
structure WW (s : WorkG) : Prop where
  a : W s.a
  b : W s.b
  c : W s.c
  d : W s.d
  e : W s.e
  f : W s.f
  g : W s.g
  h : W s.h

theorem io_round {s : WorkG} (hs : WW s) (k w : SInt) : Io (roundStepG L s k w) (Spec.Profile.gates 281 1362) WW := by
  unfold roundStepG
  exact Io.cast (Io.bind (Io.bigSigma hs.e _ _ _) fun _ h1 => Io.bind (Io.xorN hs.f hs.g) fun _ h2 => Io.bind (Io.andN hs.e h2) fun _ h3 =>
    Io.bind (Io.xorN h3 hs.g) fun _ h4 => Io.bind (hL.word hs.h _) fun _ h5 => Io.bind (hL.word h5 _) fun _ h6 =>
    Io.bind (hL.word h6 _) fun _ h7 => Io.bind (hL.word h7 _) fun _ h8 => Io.bind (Io.bigSigma hs.a _ _ _) fun _ h9 =>
    Io.bind (Io.xorN hs.a hs.b) fun _ h10 => Io.bind (Io.xorN hs.a hs.c) fun _ h11 => Io.bind (Io.andN h10 h11) fun _ h12 =>
    Io.bind (Io.xorN h12 hs.a) fun _ h13 => Io.bind (hL.word h9 _) fun _ h14 => Io.bind (hL.word hs.d _) fun _ h15 =>
    Io.bind (hL.word h8 _) fun _ h16 => Io.pure ⟨h16, hs.a, hs.b, hs.c, h15, hs.e, hs.f, hs.g⟩) rfl

theorem io_compress {k h c : List SInt} (hh : W8 h) (hc : ∀ i < 16, W (c.getD i [])) :
    Io (chunkCompressG L k h c) Spec.Profile.compress W8 := by
  have hl : 16 ≤ c.length := by
    by_contra hn
    have e := hc c.length (by omega)
    rw [List.getD_eq_default _ _ (Nat.le_refl _)] at e
    cases e
  unfold chunkCompressG
  refine Io.cast (Io.bind (d := Spec.Profile.gates (64 * 281 + 248) (64 * 1362 + 1008)) (Io.foldRange (I := fun j w => w.length = 16 + j ∧ ∀ i < 16 + j, W (w.getD i [])) 48 (fun j hj w hw => io_schedule hL hj hw) ?_) fun w hw => ?_) ?_
  · refine ⟨by rw [List.length_take]; omega, fun i hi => ?_⟩
    have hi' : i < 16 := by omega
    have e : (c.take 16).getD i [] = c.getD i [] := by
      rw [List.getD_eq_getElem?_getD, List.getD_eq_getElem?_getD, List.getElem?_take_of_lt hi']
    rw [e]
    exact hc i hi'
  · dsimp only
    exact Io.cast (Io.bind (Io.foldlM (I := WW) (fun s i hs => io_round hL hs _ _) _
        ⟨hh.2 0 (by omega), hh.2 1 (by omega), hh.2 2 (by omega), hh.2 3 (by omega), hh.2 4 (by omega), hh.2 5 (by omega), hh.2 6 (by omega), hh.2 7 (by omega)⟩) fun s hs =>
      Io.bind (hL.word hs.a _) fun _ h0 => Io.bind (hL.word hs.b _) fun _ h1 => Io.bind (hL.word hs.c _) fun _ h2 =>
      Io.bind (hL.word hs.d _) fun _ h3 => Io.bind (hL.word hs.e _) fun _ h4 => Io.bind (hL.word hs.f _) fun _ h5 =>
      Io.bind (hL.word hs.g _) fun _ h6 => Io.bind (hL.word hs.h _) fun _ h7 => Io.pure (W8.mk8 h0 h1 h2 h3 h4 h5 h6 h7)) (by
        rw [List.length_range, gates_nsmul]; rfl)
  · rw [gates_nsmul]; rfl

omit hL in
theorem mapM_words {x : SInt} : ∀ (l : List Nat) (d : List SInt), (l.mapM fun i => Gate.extractInteger x (i * 32) 32) = .ok d →
    d.length = l.length ∧ ∀ y ∈ d, W y := by
  intro l
  induction l with
  | nil => intro d e; simp only [List.mapM_nil] at e; cases e; exact ⟨rfl, fun y hy => nomatch hy⟩
  | cons i l ih =>
    intro d e
    simp only [List.mapM_cons, Bind.bind, Except.bind, Pure.pure, Except.pure] at e
    cases e1 : Gate.extractInteger x (i * 32) 32 with
    | error _ => rw [e1] at e; cases e
    | ok w =>
      rw [e1] at e
      dsimp only at e
      cases e2 : l.mapM (fun i => Gate.extractInteger x (i * 32) 32) with
      | error _ => rw [e2] at e; cases e
      | ok ws =>
        rw [e2] at e
        cases e
        obtain ⟨h1, h2⟩ := ih ws e2
        refine ⟨by rw [List.length_cons, List.length_cons, h1], fun y hy => ?_⟩
        rcases List.mem_cons.1 hy with rfl | hy
        · unfold Gate.extractInteger at e1
          split at e1
          · cases e1
            show List.length _ = 32
            rw [List.length_take, List.length_drop]
            omega
          · cases e1
        · exact h2 y hy

omit hL in
theorem inputWords {x : SInt} {d : List SInt} (h : inputWordsG x = .ok d) : ∀ i < x.length / 32, W (d.getD i []) := by
  obtain ⟨h1, h2⟩ := mapM_words _ _ h
  rw [List.length_range] at h1
  intro i hi
  rw [List.getD_eq_getElem _ _ (by omega)]
  exact h2 _ (List.getElem_mem _)

omit hL in
theorem length_paddingG {x : SInt} (h : x.length < 2 ^ 63) : (paddingG x).length = 512 * Spec.Profile.chunks x.length := by
  unfold paddingG Spec.Profile.chunks
  simp only [length_concat, List.map_cons, List.map_nil, List.sum_cons, List.sum_nil, length_pubInt]
  rw [Lemmas.pad_toInt _ h, Lemmas.padLoop_eq _ (by omega)]
  omega

theorem io_chunkLoop {k data : List SInt} {n : Nat} (hd : ∀ i < n * 16, W (data.getD i [])) {dig : List SInt} (h : W8 dig) :
    Io (chunkLoopG L k data n dig) ((n - 1) • Spec.Profile.compress) W8 := by
  unfold chunkLoopG
  refine Io.foldRange (I := fun _ => W8) (n - 1) (fun j hj dig h => io_compress hL h fun i hi => ?_) h
  rw [List.getD_eq_getElem _ _ (by rw [List.length_map, List.length_range]; exact hi), List.getElem_map, List.getElem_range]
  exact hd _ (by omega)

omit hL in
/-- The hash object: the initial value is eight words, and so are the cached ones. -/
structure ShaI (rounds fi fo : Bool) (s : ShaG) : Prop where
  h : W8 s.h
  gcIn : s.gcIn = !fi
  gcOut : s.gcOut = !fo
  ivOut : fo = false → W8 s.ivOut
  ivInSec : rounds = true → fi = false → W8 s.ivInSec

omit hL in
theorem words_init : W8 (SHA.initH.map wordG) :=
  W8.mk8 (length_pubInt _ _) (length_pubInt _ _) (length_pubInt _ _) (length_pubInt _ _) (length_pubInt _ _) (length_pubInt _ _) (length_pubInt _ _) (length_pubInt _ _)

omit hL in
theorem words_refresh : W8 (SHA.refreshH.map wordG) :=
  W8.mk8 (length_pubInt _ _) (length_pubInt _ _) (length_pubInt _ _) (length_pubInt _ _) (length_pubInt _ _) (length_pubInt _ _) (length_pubInt _ _) (length_pubInt _ _)

omit hL in
theorem ShaI.new (rounds : Bool) : ShaI rounds true true {} := ⟨words_init, rfl, rfl, (nomatch ·), fun _ h => nomatch h⟩

omit hL in
theorem ShaI.refresh (rounds : Bool) (s : ShaG) : ShaI rounds true true s.refresh := ⟨words_refresh, rfl, rfl, (nomatch ·), fun _ h => nomatch h⟩

omit hL in
theorem first_words {data : List SInt} {n : Nat} (hn : n ≠ 0) (hd : ∀ i < n * 16, W (data.getD i [])) :
    ∀ i < 16, W (((List.range 16).map fun j => data.getD j []).getD i []) := by
  intro i hi
  rw [List.getD_eq_getElem _ _ (by rw [List.length_map, List.length_range]; exact hi), List.getElem_map, List.getElem_range]
  exact hd _ (by omega)

theorem io_update {rounds fi fo : Bool} {s : ShaG} (hs : ShaI rounds fi fo s) {x : SInt} {n : Nat} (hx : x.length = 512 * (n + 1)) (ro : Bool) :
    Io (s.update L x ro) ((n + 1 - (if ro then Spec.Profile.once fo else 0)) • Spec.Profile.compress)
      (fun p => W8 p.1 ∧ ShaI rounds fi (fo && !ro) p.2) := by
  have hd : ∀ data, inputWordsG x = .ok data → ∀ i < (n + 1) * 16, W (data.getD i []) := fun data e i hi => inputWords e i (by rw [hx]; omega)
  have hn : x.length / 512 = n + 1 := by rw [hx]; omega
  unfold ShaG.update ShaG.firstOut
  rw [if_neg (by rw [hx]; omega)]
  refine Io.cast (Io.bind (Io.lift _) fun data e => ?_) (zero_add _)
  rw [hn, if_neg (by omega)]
  have hd := hd data e
  have loop : ∀ {dig : List SInt} {s' : ShaG}, W8 dig → ShaI rounds fi (fo && !ro) s' →
      Io (do let dig ← chunkLoopG L s'.k data (n + 1) dig; Pure.pure (dig, s')) (n • Spec.Profile.compress) (fun p => W8 p.1 ∧ ShaI rounds fi (fo && !ro) p.2) :=
    fun hw hs' => Io.cast (Io.bind (io_chunkLoop hL hd hw) fun dig hw => Io.pure ⟨hw, hs'⟩) (add_zero _)
  cases ro with
  | false =>
    rw [Bool.not_false, Bool.and_true] at loop ⊢
    refine Io.cast (Io.bind (R := fun p => W8 p.1 ∧ ShaI rounds fi fo p.2) (d := n • Spec.Profile.compress)
      (Io.bind (io_compress hL hs.h (first_words (by omega) hd)) fun dig hw => Io.pure ⟨hw, hs⟩) ?_) ?_
    · rintro ⟨dig, s'⟩ ⟨hw, hs'⟩
      exact loop hw hs'
    · rw [add_zero, ← succ_nsmul']; rfl
  | true =>
    cases fo with
    | false =>
      rw [if_pos rfl, if_pos (by rw [hs.gcOut]; rfl)]
      refine Io.cast (Io.bind (R := fun p => W8 p.1 ∧ ShaI rounds fi false p.2) (d := n • Spec.Profile.compress) (Io.pure ⟨hs.ivOut rfl, hs⟩) ?_) (zero_add _)
      rintro ⟨dig, s'⟩ ⟨hw, hs'⟩
      exact loop hw hs'
    | true =>
      rw [if_pos rfl, if_neg (by rw [hs.gcOut]; decide)]
      refine Io.cast (Io.bind (R := fun p => W8 p.1 ∧ ShaI rounds fi false p.2) (d := n • Spec.Profile.compress)
        (Io.bind (io_compress hL hs.h (first_words (by omega) hd)) fun dig hw => Io.pure ⟨hw, hs.h, hs.gcIn, rfl, fun _ => hw, hs.ivInSec⟩) ?_) ?_
      · rintro ⟨dig, s'⟩ ⟨hw, hs'⟩
        exact loop hw hs'
      · rw [add_zero, ← succ_nsmul']; rfl

theorem io_roundsUpdate {fi fo : Bool} {s : ShaG} (hs : ShaI true fi fo s) {x : SInt} {n : Nat} (hx : x.length = 512 * (n + 1)) :
    Io (s.optRoundsUpdate L x true) ((n + 1 - Spec.Profile.once fi) • Spec.Profile.compress) (fun p => W8 p.1 ∧ ShaI true false fo p.2) := by
  have hd : ∀ data, inputWordsG x = .ok data → ∀ i < (n + 1) * 16, W (data.getD i []) := fun data e i hi => inputWords e i (by rw [hx]; omega)
  have hn : x.length / 512 = n + 1 := by rw [hx]; omega
  unfold ShaG.optRoundsUpdate ShaG.firstIn
  rw [if_neg (by rw [hx]; omega)]
  refine Io.cast (Io.bind (Io.lift _) fun data e => ?_) (zero_add _)
  rw [hn, if_neg (by omega)]
  have hd := hd data e
  have loop : ∀ {dig : List SInt} {s' : ShaG}, W8 dig → ShaI true false fo s' →
      Io (do let dig ← chunkLoopG L s'.k data (n + 1) dig; Pure.pure (dig, s')) (n • Spec.Profile.compress) (fun p => W8 p.1 ∧ ShaI true false fo p.2) :=
    fun hw hs' => Io.cast (Io.bind (io_chunkLoop hL hd hw) fun dig hw => Io.pure ⟨hw, hs'⟩) (add_zero _)
  cases fi with
  | false =>
    rw [if_pos rfl, if_pos (by rw [hs.gcIn]; rfl)]
    refine Io.cast (Io.bind (R := fun p => W8 p.1 ∧ ShaI true false fo p.2) (d := n • Spec.Profile.compress) (Io.pure ⟨hs.ivInSec rfl rfl, hs⟩) ?_) (zero_add _)
    rintro ⟨dig, s'⟩ ⟨hw, hs'⟩
    exact loop hw hs'
  | true =>
    rw [if_pos rfl, if_neg (by rw [hs.gcIn]; decide)]
    refine Io.cast (Io.bind (R := fun p => W8 p.1 ∧ ShaI true false fo p.2) (d := n • Spec.Profile.compress)
      (Io.bind (io_compress hL hs.h (first_words (by omega) hd)) fun dig hw => Io.pure ⟨hw, hs.h, rfl, hs.gcOut, hs.ivOut, fun _ _ => hw⟩) ?_) ?_
    · rintro ⟨dig, s'⟩ ⟨hw, hs'⟩
      exact loop hw hs'
    · rw [add_zero, ← succ_nsmul']; rfl

theorem io_digest {rounds fi fo : Bool} {s : ShaG} (hs : ShaI rounds fi fo s) {x : SInt} (hx : x.length < 2 ^ 63) (ro : Bool) :
    Io (s.digest L x ro) ((Spec.Profile.chunks x.length - (if ro then Spec.Profile.once fo else 0)) • Spec.Profile.compress)
      (fun p => W8 p.1 ∧ ShaI rounds fi (fo && !ro) p.2) :=
  io_update hL hs (length_paddingG hx) ro

theorem io_roundsDigest {fi fo : Bool} {s : ShaG} (hs : ShaI true fi fo s) {x : SInt} (hx : x.length < 2 ^ 63) :
    Io (s.optRoundsDigest L x true) ((Spec.Profile.chunks x.length - Spec.Profile.once fi) • Spec.Profile.compress) (fun p => W8 p.1 ∧ ShaI true false fo p.2) :=
  io_roundsUpdate hL hs (length_paddingG hx)

omit hL in
theorem io_revealWords {d : List SInt} (h : W8 d) : Io (revealWordsG d) (Spec.Profile.opens .pub 256) (fun _ => True) := by
  refine Io.cast (Io.bind (Io.reveal _ _) fun _ _ => Io.pure trivial) ?_
  rw [add_zero, length_reverseConcat, h.bits]
  rfl

theorem io_optDigest {fi fo : Bool} {s : ShaG} (hs : ShaI false fi fo s) (g : List Byte) {sec : SInt} (pub : List Byte) :
    Io (s.optDigest L g sec pub true) (if fi then Spec.Profile.compress + Spec.Profile.opens .pub 256 else 0)
      (fun p => p.1.length = 8 ∧ ShaI false false fo p.2 ∧ sec.length = 512) := by
  unfold ShaG.optDigest ShaG.optFirst ShaG.compressOpen
  by_cases hx : sec.length ≠ 512
  · rw [if_pos hx]
    intro O s a t e
    cases e
  rw [if_neg hx]
  have hx := Decidable.not_not.1 hx
  refine Io.cast (Io.bind (R := fun p => ShaI false false fo p.2) (d := 0) (Io.cast (Io.bind (Io.lift _) fun data e => ?_) (zero_add _)) fun p hp =>
    Io.pure ⟨plainTail_length _ _ _, hp, hx⟩) (add_zero _)
  rw [if_pos rfl]
  have hd := inputWords e
  rw [hx] at hd
  cases fi with
  | true =>
    rw [if_pos (by rw [hs.gcIn]; rfl), if_pos rfl]
    refine Io.cast (Io.bind (Io.bind (io_compress hL hs.h fun i hi => hd i (by omega)) fun d hd => io_revealWords hd) fun dig _ => Io.pure
      ⟨hs.h, rfl, hs.gcOut, hs.ivOut, (nomatch ·)⟩) (add_zero _)
  | false =>
    rw [if_neg (by rw [hs.gcIn]; decide), if_neg (by decide)]
    cases s.ivIn[s.pos.toNat]? with
    | none => exact Io.fail
    | some d => exact Io.pure hs

/-! ### HMAC -/

omit hL in
structure HmacI (rounds : Bool) (pad : Nat) (fr : Bool) (m : HmacG) : Prop where
  sha : ShaI rounds fr fr m.sha
  o : m.oKeyPad.length = pad
  i : m.iKeyPad.length = pad

omit hL in
theorem HmacI.new (rounds : Bool) : HmacI rounds 0 true {} := ⟨ShaI.new rounds, rfl, rfl⟩

omit hL in
theorem io_padConst : Io padConstG (Spec.Profile.gates 0 (63 * 1024)) (fun p => p.1.length = 512 ∧ p.2.length = 512) := by
  unfold padConstG
  refine Io.cast (Io.foldlM (I := fun p : SInt × SInt => p.1.length = 512 ∧ p.2.length = 512) (c := Spec.Profile.gates 0 1024) (fun p _ hp => ?_) _
    ⟨length_pubInt _ _, length_pubInt _ _⟩) (by rw [List.length_range, gates_nsmul])
  exact Io.cast (Io.bind (Io.xorN (by rw [length_shl]; exact hp.1) (length_pubInt _ _)) fun _ h1 =>
    Io.bind (Io.xorN (by rw [length_shl]; exact hp.2) (length_pubInt _ _)) fun _ h2 => Io.pure ⟨h1, h2⟩) rfl

theorem io_init (rounds : Bool) (m : HmacG) {key : SInt} (hk : key.length < 2 ^ 63) :
    Io (m.init L key) (Spec.Profile.hmacKey key.length) (HmacI rounds 512 true) := by
  unfold HmacG.init
  have pk : Io (padKeyG L m.sha.refresh key) (if 512 < key.length then Spec.Profile.chunks key.length • Spec.Profile.compress else 0)
      (fun p => p.1.length = 512 ∧ ShaI rounds true true p.2) := by
    unfold padKeyG
    by_cases h : key.length > 512
    · rw [if_pos h, if_pos (show 512 < key.length from h)]
      refine Io.cast (Io.bind (io_digest hL (ShaI.refresh rounds _) hk false) ?_) (add_zero _)
      rintro ⟨d, s⟩ ⟨hw, hs⟩
      refine Io.pure ⟨?_, hs⟩
      rw [length_concat, length_concat, hw.bits]
      simp only [List.map_cons, List.map_nil, List.sum_cons, List.sum_nil, length_pubInt, List.length_nil]
      rfl
    · rw [if_neg h, if_neg (show ¬512 < key.length from h)]
      refine Io.pure ⟨?_, ShaI.refresh rounds _⟩
      rw [length_concat]
      simp only [List.map_cons, List.map_nil, List.sum_cons, List.sum_nil, length_pubInt]
      omega
  unfold Spec.Profile.hmacKey
  refine Io.bind pk ?_
  rintro ⟨d, s⟩ ⟨hd, hs⟩
  refine Io.cast (Io.bind io_padConst (d := Spec.Profile.gates 0 1024) ?_) rfl
  rintro ⟨o, i⟩ ⟨ho, hi⟩
  exact Io.cast (Io.bind (Io.xorN hd ho) fun _ h1 => Io.bind (Io.xorN hd hi) fun _ h2 => Io.pure ⟨hs, h1, h2⟩) rfl

omit hL in
theorem io_feedWords : ∀ d : List (BitVec 32), Io (feedWords d) (d.length • Spec.Profile.feed .alice 32)
    (fun x => x.length = d.length ∧ (x.map List.length).sum = 32 * d.length)
  | [] => Io.cast (Io.pure ⟨rfl, rfl⟩) (zero_nsmul _).symm
  | w :: d => by
    unfold feedWords
    refine Io.cast (Io.bind (Io.feedA _) fun x hx => Io.bind (io_feedWords d) fun r hr => Io.pure ?_) ?_
    · rw [length_ofNat'] at hx
      simp only [List.length_cons, List.map_cons, List.sum_cons, hr.1, hr.2, hx, true_and]
      omega
    · rw [add_zero, length_ofNat', List.length_cons, succ_nsmul']

theorem io_optHmac {pad : Nat} {fr : Bool} {m : HmacG} (hm : HmacI false pad fr m) (g msg : List Byte) :
    Io (m.optHmac L g msg true true) (Spec.Profile.hmacOpen pad fr) (fun p => W8 p.1 ∧ HmacI false pad false p.2) := by
  unfold HmacG.optHmac Spec.Profile.hmacOpen
  rw [add_assoc]
  refine Io.bind (io_optDigest hL hm.sha g msg) ?_
  rintro ⟨dig, s⟩ ⟨hd, hs, hp⟩
  rw [hm.i] at hp
  refine Io.bind (Io.cast (io_feedWords _) (by rw [hd])) fun o ho => ?_
  have e : (Gate.concat m.oKeyPad o).length = pad + 256 := by rw [length_concat, hm.o, ho.2, hd]
  refine Io.cast (Io.bind (io_digest hL hs (by rw [e, hp]; omega) true) ?_) ((add_zero _).trans (by rw [e]; rfl))
  rintro ⟨r, s⟩ ⟨hr, hs⟩
  rw [Bool.not_true, Bool.and_false] at hs
  exact Io.pure ⟨hr, hs, hm.o, hm.i⟩

theorem io_roundsHmac {pad : Nat} {fr : Bool} {m : HmacG} (hm : HmacI true pad fr m) {msg : SInt} (hl : pad + msg.length < 2 ^ 62) :
    Io (m.optRoundsHmac L msg true true) (Spec.Profile.hmacSecret pad fr msg.length) (fun p => W8 p.1 ∧ HmacI true pad false p.2) := by
  unfold HmacG.optRoundsHmac Spec.Profile.hmacSecret
  have e : (Gate.concat m.iKeyPad [msg]).length = pad + msg.length := by rw [length_concat, hm.i]; rfl
  refine Io.bind (Io.cast (io_roundsDigest hL hm.sha (by rw [e]; omega)) (by rw [e])) ?_
  rintro ⟨dig, s⟩ ⟨hd, hs⟩
  have e : (Gate.concat m.oKeyPad dig).length = pad + 256 := by rw [length_concat, hm.o, hd.bits]
  refine Io.cast (Io.bind (io_digest hL hs (by rw [e]; omega) true) ?_) ((add_zero _).trans (by rw [e]; rfl))
  rintro ⟨r, s⟩ ⟨hr, hs⟩
  rw [Bool.not_true, Bool.and_false] at hs
  exact Io.pure ⟨hr, hs, hm.o, hm.i⟩

/-! ### PRF -/

theorem io_optPhash (g : Nat → List Byte) (seed : List Byte) {pad : Nat} (n : Nat) : ∀ {fr : Bool} {m : HmacG}, HmacI false pad fr m → ∀ (a : List Byte) (res : SInt),
    Io (optPhashG L g seed true true n m a res) (Spec.Profile.blocksOpen pad n fr)
      (fun p => p.1.length = res.length + 256 * n ∧ HmacI false pad (fr && n == 0) p.2) := by
  induction n with
  | zero => intro fr m hm a res; exact Io.pure ⟨rfl, by rw [beq_self_eq_true, Bool.and_true]; exact hm⟩
  | succ n ih =>
    intro fr m hm a res
    unfold optPhashG Spec.Profile.blocksOpen
    rw [add_assoc, add_assoc]
    refine Io.bind (io_optHmac hL hm _ _) ?_
    rintro ⟨d, m1⟩ ⟨hd, h1⟩
    refine Io.bind (io_revealWords hd) fun w _ => ?_
    refine Io.bind (io_optHmac hL h1 _ _) ?_
    rintro ⟨d, m2⟩ ⟨hd, h2⟩
    refine Io.mono (ih h2 _ _) ?_
    rintro p ⟨e, h3⟩
    refine ⟨?_, ?_⟩
    · rw [e, length_concat, hd.bits]; omega
    · rw [show (fr && (n + 1 == 0)) = false by cases fr <;> rfl]
      exact h3

theorem io_roundsPhash {pad : Nat} (hp : pad ≤ 512) {seed : SInt} (hs : seed.length < 2 ^ 60) (n : Nat) : ∀ {fr : Bool} {m : HmacG}, HmacI true pad fr m →
    ∀ {a : SInt} (_ : a.length < 2 ^ 60) (res : SInt), Io (roundsPhashG L seed true true n m a res) (Spec.Profile.blocksSecret pad seed.length n fr a.length)
      (fun p => p.1.length = res.length + 256 * n ∧ HmacI true pad (fr && n == 0) p.2) := by
  induction n with
  | zero => intro fr m hm a ha res; exact Io.pure ⟨rfl, by rw [beq_self_eq_true, Bool.and_true]; exact hm⟩
  | succ n ih =>
    intro fr m hm a ha res
    unfold roundsPhashG Spec.Profile.blocksSecret
    rw [add_assoc]
    refine Io.bind (io_roundsHmac hL hm (by omega)) ?_
    rintro ⟨d, m1⟩ ⟨hd, h1⟩
    have e0 : (Gate.concat [] d).length = 256 := by rw [length_concat, hd.bits]; rfl
    have e1 : (Gate.concat (Gate.concat [] [Gate.concat [] d]) [seed]).length = 256 + seed.length := by
      rw [length_concat, length_concat]
      simp only [List.map_cons, List.map_nil, List.sum_cons, List.sum_nil, List.length_nil, e0]
      omega
    refine Io.bind (Io.cast (io_roundsHmac hL h1 (by rw [e1]; omega)) (by rw [e1])) ?_
    rintro ⟨d', m2⟩ ⟨hd', h2⟩
    have h3 := ih h2 (show (Gate.concat [] d).length < 2 ^ 60 by rw [e0]; omega) (Gate.concat res d')
    rw [e0] at h3
    refine Io.mono h3 ?_
    rintro p ⟨e, h3⟩
    refine ⟨?_, ?_⟩
    · rw [e, length_concat, hd'.bits]; omega
    · rw [show (fr && (n + 1 == 0)) = false by cases fr <;> rfl]
      exact h3

omit hL in
theorem length_truncG {res : SInt} {r n bitlen : Nat} (h : res.length = r + 256 * n) (hn : SHA.prfBlocks bitlen = n) (hb : bitlen ≤ 256 * n) :
    (truncG res bitlen).length = r + bitlen := by
  rw [truncG, List.length_drop, h, hn]
  omega

/-! ### AEAD -/

omit hL in
theorem Io.foldCost {α ι : Type} {f : α → ι → M α} {c : ι → Cost} (h : ∀ a i, Io (f a i) (c i) (fun _ => True)) (l : List ι) :
    ∀ a : α, Io (l.foldlM f a) ((l.map c).sum) (fun _ => True) := by
  induction l with
  | nil => intro a; exact Io.pure trivial
  | cons i l ih =>
    intro a
    rw [List.foldlM_cons, List.map_cons, List.sum_cons]
    exact Io.bind (h a i) fun a _ => ih a

omit hL in
theorem sum_gates (f : Nat → Nat) (hf : ∀ i, f i ≤ 1) (l : List Nat) :
    (l.map fun i => Spec.Profile.gates (f i) (1 - f i)).sum = Spec.Profile.gates (l.map f).sum (l.length - (l.map f).sum) ∧ (l.map f).sum ≤ l.length := by
  induction l with
  | nil => exact ⟨rfl, Nat.le_refl _⟩
  | cons i l ih =>
    obtain ⟨h1, h2⟩ := ih
    have := hf i
    refine ⟨?_, by simp only [List.map_cons, List.sum_cons, List.length_cons]; omega⟩
    rw [List.map_cons, List.sum_cons, h1, gates_add]
    exact gates_congr rfl (by simp only [List.map_cons, List.sum_cons, List.length_cons]; omega)

omit hL in
theorem io_bristol {c : AESCircuit.Circuit} {n : Nat} (hc : AESCount.ands c = n) (j : Nat → Wire) (x y : SInt) :
    Io (bristol c j x y) (Spec.Profile.gates n (c.numGate - n)) (fun z => z.length = c.n3) := by
  unfold bristol
  by_cases h : x.length < c.n1 ∨ y.length < c.n2
  · rw [if_pos h]; exact Io.fail
  rw [if_neg h]
  refine Io.cast (Io.bind (Io.foldCost (c := fun i => Spec.Profile.gates (if (c.gate i).op = 0 then 1 else 0) (1 - if (c.gate i).op = 0 then 1 else 0))
    (fun w i => ?_) _ _) fun w _ => Io.pure ?_) ?_
  · refine Io.cast (Io.bind (?_ : Io _ (Spec.Profile.gates (if (c.gate i).op = 0 then 1 else 0) (1 - if (c.gate i).op = 0 then 1 else 0)) fun _ => True) fun o _ => Io.pure trivial) (add_zero _)
    unfold gateOut
    by_cases h0 : (c.gate i).op = 0
    · rw [if_pos h0, if_pos h0]; exact Io.andG _ _
    · rw [if_neg h0, if_neg h0]
      by_cases h1 : (c.gate i).op = 1
      · rw [if_pos h1]; exact Io.xorG _ _
      · rw [if_neg h1]; exact Io.notG _
  · rw [List.length_map, List.length_range]
  · rw [add_zero, (sum_gates (fun i => if (c.gate i).op = 0 then 1 else 0) (fun i => by split <;> omega) _).1, List.length_range]
    exact gates_congr hc (by rw [← hc]; rfl)

omit hL in
theorem io_computeKS (j : Nat → Wire) (k : SInt) : Io (computeKS j k) Spec.Profile.aesKeys (fun _ => True) :=
  Io.mono (Io.cast (io_bristol AESCount.ks_ands j k []) rfl) fun _ _ => trivial

omit hL in
theorem io_computeAESKS (j : Nat → Wire) (k m : SInt) : Io (computeAESKS j k m) Spec.Profile.aesRounds (fun z => z.length = 128) :=
  Io.cast (Io.bind (io_bristol AESCount.enc_ands j k m) fun o h => Io.pure (by rw [List.length_reverse, h]; rfl)) rfl

omit hL in
theorem io_aeadNew (j : Nat → Nat → Wire) (key iv : SInt) : Io (AeadG.new j key iv) (Spec.Profile.aesKeys + Spec.Profile.aesRounds) (fun _ => True) :=
  Io.cast (Io.bind (io_computeKS _ _) fun _ _ => Io.bind (io_computeAESKS _ _ _) fun _ _ => Io.pure trivial) (by rw [add_zero])

theorem io_inc (c : SInt) : Io (incG L c 32) (Spec.Profile.adder 32) (fun _ => True) := by
  unfold incG
  by_cases h : c.length < 32
  · rw [if_pos h]; exact Io.fail
  rw [if_neg h]
  refine Io.cast (Io.bind (hL.add _ _) fun _ _ => Io.pure trivial) ?_
  rw [add_zero, List.length_take, Nat.min_eq_left (by omega)]

theorem io_gctr (j : Nat → Nat → Wire) (ks : SInt) (m : Nat) : ∀ res nonce : SInt,
    Io (gctrG L j ks m res nonce) (m • (Spec.Profile.aesRounds + Spec.Profile.adder 32)) (fun p => p.1.length = res.length + 128 * m) := by
  induction m with
  | zero => intro res nonce; rw [zero_nsmul]; exact Io.pure rfl
  | succ m ih =>
    intro res nonce
    unfold gctrG
    rw [succ_nsmul', add_assoc]
    refine Io.bind (io_computeAESKS _ _ _) fun t ht => Io.bind (io_inc hL _) fun nonce _ => Io.mono (ih _ _) fun p hp => ?_
    rw [hp, length_concat]
    simp only [List.map_cons, List.map_nil, List.sum_cons, List.sum_nil, ht]
    omega

omit hL in
theorem io_setNonce (f : SInt) (iv : List Byte) : Io (setNonceG f iv) (Spec.Profile.feed .alice 64) (fun _ => True) := by
  unfold setNonceG
  by_cases h : iv.length ≠ 8
  · rw [if_pos h]; exact Io.fail
  rw [if_neg h]
  refine Io.cast (Io.bind (Io.feedA _) fun _ _ => Io.pure trivial) ?_
  rw [add_zero, length_ofBytes', List.length_reverse, Decidable.not_not.1 h]

omit hL in
theorem ctrLen_eq (n : Nat) : AEAD.ctrLen n = (8 * n + 127) / 128 := by
  unfold AEAD.ctrLen; omega

omit hL in
theorem length_stream {Z : SInt} {n : Nat} (h : Z.length = ([] : SInt).length + 128 * (1 + AEAD.ctrLen n)) :
    ((Z.take (Z.length - 128)).drop (AEAD.padBits n)).length = 8 * n := by
  rw [List.length_drop, List.length_take, h]
  unfold AEAD.ctrLen AEAD.padBits
  simp only [List.length_nil]
  omega

theorem io_encrypt (st : AeadG) (j : Nat → Nat → Wire) (iv : List Byte) (n : Nat) (sec : Bool) :
    Io (st.encrypt L j iv n sec) (Spec.Profile.record n sec) (fun _ => True) := by
  unfold AeadG.encrypt Spec.Profile.record
  rw [add_assoc, ← ctrLen_eq]
  refine Io.bind (io_setNonce _ _) fun nonce _ => Io.bind (io_gctr hL _ _ _ _ _) ?_
  rintro ⟨Z, nonce⟩ hz
  cases sec with
  | true => exact Io.pure trivial
  | false => exact Io.cast (Io.bind (Io.reveal _ _) fun _ _ => Io.pure trivial) (by rw [add_zero, length_stream hz]; rfl)

theorem io_decrypt (st : AeadG) (j : Nat → Nat → Wire) (iv : List Byte) (n : Nat) (sec : Bool) :
    Io (st.decrypt L j iv n sec) (Spec.Profile.record n sec) (fun _ => True) := by
  unfold AeadG.decrypt Spec.Profile.record
  rw [add_assoc, ← ctrLen_eq]
  refine Io.bind (io_setNonce _ _) fun nonce _ => Io.bind (io_gctr hL _ _ _ _ _) ?_
  rintro ⟨Z, nonce⟩ hz
  cases sec with
  | true => exact Io.pure trivial
  | false => exact Io.cast (Io.bind (Io.reveal _ _) fun _ _ => Io.pure trivial) (by rw [add_zero, length_stream hz]; rfl)

/-! ### Handshake -/

theorem io_addmod {a b : SInt} {q n : Nat} (ha : a.length = 8 * n) (hq : bnNumBytes q = n) :
    Io (addmodG L a b q) (Spec.Profile.addmod n) (fun z => z.length = 8 * n) := by
  unfold addmodG Spec.Profile.addmod
  rw [add_assoc, add_assoc]
  have e1 : (a ++ [Wire.pub false]).length = 8 * n + 1 := by rw [List.length_append, ha]; rfl
  have eq : (pubBytes (bn2bin q).reverse ++ [Wire.pub false] ++ [Wire.pub false]).length = 8 * n + 2 := by
    unfold bnNumBytes at hq
    simp only [pubBytes, List.length_append, List.length_map, length_ofBytes', List.length_reverse, hq, List.length_singleton]
  refine Io.bind (Io.cast (hL.add _ _) (by rw [e1])) fun c hc => ?_
  have e2 : (c ++ [Wire.pub false]).length = 8 * n + 2 := by rw [List.length_append, hc, e1]; rfl
  refine Io.bind (Io.cast (hL.geq _ _) (by rw [e2])) fun sel _ => ?_
  refine Io.bind (Io.cast (hL.sub _ _) (by rw [e2])) fun d hd => ?_
  refine Io.cast (Io.bind (hL.select _ _ _ hd.symm) fun r hr => Io.pure ?_) (by rw [e2, add_zero])
  rw [List.length_dropLast, List.length_dropLast, hr, e2]
  rfl

omit hL in
/-- The handshake object. -/
structure HsI (rounds : Bool) (q : Nat) (s : Spec.Profile.State) (h : HsG) : Prop where
  hmac : HmacI rounds s.pad s.fresh h.hmac
  pad : s.pad ≤ 512
  q : h.q = q
  ro : h.roundsOpt = rounds
  master : h.masterKey.length = s.master

theorem io_prfCall {rounds : Bool} {q : Nat} {s : Spec.Profile.State} {h : HsG} (hh : HsI rounds q s h) (g : Nat → List Byte) (res : SInt) {bitlen n : Nat}
    (hn : SHA.prfBlocks bitlen = n) (hb : bitlen ≤ 256 * n) (hp : n ≠ 0) {label seed : List Byte} {len : Nat} (hl : label.length + seed.length = len) (hs : len < 2 ^ 56) :
    Io (h.prfCall L g res bitlen label seed) (Spec.Profile.prf rounds s.pad s.fresh n len)
      (fun p => p.1.length = res.length + bitlen ∧ HsI rounds q ⟨s.pad, false, s.master⟩ p.2) := by
  unfold HsG.prfCall HsG.prfSel Spec.Profile.prf
  have hz : ∀ b : Bool, (b && n == 0) = false := by
    intro b
    rw [show (n == 0) = false by simpa using hp, Bool.and_false]
  rw [hh.ro]
  cases rounds with
  | false =>
    refine Io.cast (Io.bind (R := fun p : SInt × HmacG => p.1.length = res.length + bitlen ∧ HmacI false s.pad false p.2) (d := 0) ?_ ?_) (add_zero _)
    · unfold optComputeG
      refine Io.cast (Io.bind (io_optPhash hL g _ _ hh.hmac _ _) ?_) (by rw [add_zero, hn]; rfl)
      rintro ⟨r, m⟩ ⟨e, hm⟩
      rw [hn] at e hm
      rw [hz] at hm
      exact Io.pure ⟨length_truncG e hn hb, hm⟩
    · rintro ⟨r, m⟩ ⟨e, hm⟩
      exact Io.pure ⟨e, hm, hh.pad, hh.q, rfl, hh.master⟩
  | true =>
    refine Io.cast (Io.bind (R := fun p : SInt × HmacG => p.1.length = res.length + bitlen ∧ HmacI true s.pad false p.2) (d := 0) ?_ ?_) (add_zero _)
    · unfold roundsComputeG
      have e0 : (Integer.ofBytes (label ++ seed).reverse).length = 8 * len := by rw [length_ofBytes', List.length_reverse, List.length_append, hl]
      rw [if_neg (by decide), if_pos rfl]
      refine Io.bind (Io.cast (Io.feedA _) (by rw [e0])) fun a0 ha => ?_
      rw [e0] at ha
      refine Io.cast (Io.bind (io_roundsPhash hL hh.pad (by rw [ha]; omega) _ hh.hmac (by rw [ha]; omega) _) ?_) (by rw [add_zero, hn, ha])
      rintro ⟨r, m⟩ ⟨e, hm⟩
      rw [hn] at e hm
      rw [hz] at hm
      exact Io.pure ⟨length_truncG e hn hb, hm⟩
    · rintro ⟨r, m⟩ ⟨e, hm⟩
      exact Io.pure ⟨e, hm, hh.pad, hh.q, rfl, hh.master⟩

omit hL in
theorem ofNat_bits (n v : Nat) : Integer.ofNat n v = Spec.Profile.bits n v := by
  apply List.ext_getElem
  · rw [length_ofNat', Spec.Profile.bits, List.length_map, List.length_range]
  · intro i h1 h2
    rw [Lemmas.getElem_ofNat]
    simp only [Spec.Profile.bits, List.getElem_map, List.getElem_range]

omit hL in
theorem buffer_bits {len n : Nat} {b : List Byte} (h : bnBuffer len n = .ok b) : Integer.ofBytes b = Spec.Profile.bits (8 * len) n := by
  have hb : bnNumBytes n ≤ len := by
    unfold bnBuffer at h
    split at h
    · assumption
    · cases h
  obtain ⟨buf, e, l, v⟩ := Lemmas.bnBuffer_spec len n hb
  rw [h, Except.ok.injEq] at e
  subst e
  rw [← ofNat_bits, ← Lemmas.ofNat_val (Integer.ofBytes b), l, v]

theorem io_keyFromShares {rounds : Bool} {q : Nat} {s : Spec.Profile.State} {h : HsG} (hh : HsI rounds q s h) (hq : bnNumBytes q < 2 ^ 56) (a b : Nat) :
    Io (h.keyFromShares L a b) (Spec.Profile.feed .alice (8 * bnNumBytes q) + Spec.Profile.feedBob (Spec.Profile.bits (8 * bnNumBytes q) b) + Spec.Profile.addmod (bnNumBytes q)
      + Spec.Profile.hmacKey (8 * bnNumBytes q)) (HsI rounds q ⟨512, true, s.master⟩) := by
  unfold HsG.keyFromShares
  rw [hh.q]
  rw [add_assoc, add_assoc]
  refine Io.cast (Io.bind (Io.lift _) fun A eA => ?_) (zero_add _)
  refine Io.cast (Io.bind (Io.lift _) fun B eB => ?_) (zero_add _)
  refine Io.bind (Io.cast (Io.feedA _) (by rw [length_ofBytes', bnBuffer_length eA])) fun x hx => ?_
  refine Io.bind (Io.cast (Io.feedB _) (by rw [buffer_bits eB])) fun y hy => ?_
  refine Io.bind (io_addmod hL (n := bnNumBytes q) (by rw [hx, length_ofBytes', bnBuffer_length eA]) rfl) fun p hp => ?_
  exact Io.cast (Io.bind (io_init hL rounds _ (by rw [hp]; omega)) fun m hm => Io.pure ⟨hm, Nat.le_refl _, rfl, hh.ro, hh.master⟩) (by rw [add_zero, hp])

/-! ### Calls -/

omit hL in
/-- The public lengths of a call. -/
def shape : Call → Spec.Profile.Call
  | .masterKey _ _ b rc rs => .masterKey b (rc.length + rs.length)
  | .extendedMasterKey _ _ b sh => .extendedMasterKey b sh.length
  | .expansionKeys _ rc rs => .expansionKeys (rc.length + rs.length)
  | .clientFinished _ l t => .finished l.length t.length
  | .serverFinished _ l t => .finished l.length t.length
  | .newAead _ _ => .newAead
  | .encrypt _ _ _ n sec => .record n sec
  | .decrypt _ _ _ n sec => .record n sec

omit hL in
/-- Seeds of any practical length. -/
def Small : Call → Prop
  | .masterKey _ _ _ rc rs => rc.length + rs.length < 2 ^ 55
  | .extendedMasterKey _ _ _ sh => sh.length < 2 ^ 55
  | .expansionKeys _ rc rs => rc.length + rs.length < 2 ^ 55
  | .clientFinished _ l t => l.length + t.length < 2 ^ 55
  | .serverFinished _ l t => l.length + t.length < 2 ^ 55
  | _ => True

theorem io_step {rounds : Bool} {q : Nat} (hq : bnNumBytes q < 2 ^ 56) {s : Spec.Profile.State} (hm : s.master < 2 ^ 62) {c : ConnG} (hc : HsI rounds q s c.hs)
    (op : Call) (ho : Small op) : Io (c.step L op) (Spec.Profile.step rounds (bnNumBytes q) s (shape op)).1
      (fun p => HsI rounds q (Spec.Profile.step rounds (bnNumBytes q) s (shape op)).2 p.2.hs) := by
  have hset : ∀ (cl : Bool) (a : AeadG), (c.setAead cl a).hs = c.hs := by intro cl a; cases cl <;> rfl
  cases op with
  | masterKey g a b rc rs =>
    have ho : rc.length + rs.length < 2 ^ 55 := ho
    refine Io.cast (Io.bind (R := HsI rounds q ⟨512, false, s.master + 384⟩) (d := 0) ?_ fun h hh => Io.pure hh) (add_zero _)
    refine Io.bind (io_keyFromShares hL hc hq a b) fun h hh => ?_
    refine Io.cast (Io.bind (d := 0) (io_prfCall hL hh g _ (n := 2) rfl (by decide) (by decide) rfl (by rw [List.length_append]; show 13 + _ < _; omega)) ?_) ?_
    · rintro ⟨r, h⟩ ⟨e, hh'⟩
      exact Io.pure ⟨hh'.hmac, hh'.pad, hh'.q, hh'.ro, e.trans (by rw [hh.master]; rfl)⟩
    · rw [add_zero, List.length_append]; rfl
  | extendedMasterKey g a b sh =>
    have ho : sh.length < 2 ^ 55 := ho
    refine Io.cast (Io.bind (R := HsI rounds q ⟨512, false, s.master + 384⟩) (d := 0) ?_ fun h hh => Io.pure hh) (add_zero _)
    refine Io.bind (io_keyFromShares hL hc hq a b) fun h hh => ?_
    refine Io.cast (Io.bind (d := 0) (io_prfCall hL hh g _ (n := 2) rfl (by decide) (by decide) rfl (by show 22 + _ < _; omega)) ?_) ?_
    · rintro ⟨r, h⟩ ⟨e, hh'⟩
      exact Io.pure ⟨hh'.hmac, hh'.pad, hh'.q, hh'.ro, e.trans (by rw [hh.master]; rfl)⟩
    · rw [add_zero]; rfl
  | expansionKeys g rc rs =>
    have ho : rc.length + rs.length < 2 ^ 55 := ho
    refine Io.cast (Io.bind (R := HsI rounds q ⟨512, false, s.master⟩) (d := 0) ?_ fun h hh => Io.pure hh) (add_zero _)
    unfold HsG.computeExpansionKeys
    refine Io.bind (Io.cast (io_init hL rounds _ (by rw [hc.master]; omega)) (by rw [hc.master])) fun m hm => ?_
    have hh : HsI rounds q ⟨512, true, s.master⟩ { c.hs with hmac := m } := ⟨hm, Nat.le_refl _, hc.q, hc.ro, hc.master⟩
    refine Io.cast (Io.bind (d := 0) (io_prfCall hL hh g _ (n := 2) rfl (by decide) (by decide) rfl (by rw [List.length_append]; show 13 + _ < _; omega)) ?_) ?_
    · rintro ⟨r, h⟩ ⟨e, hh'⟩
      exact Io.cast (Io.bind (Io.lift _) fun _ _ => Io.bind (Io.lift _) fun _ _ => Io.bind (Io.lift _) fun _ _ => Io.bind (Io.lift _) fun _ _ =>
        Io.pure ⟨hh'.hmac, hh'.pad, hh'.q, hh'.ro, hh'.master⟩) rfl
    · rw [add_zero, List.length_append, Nat.add_comm rs.length]; rfl
  | clientFinished g l t =>
    have ho : l.length + t.length < 2 ^ 55 := ho
    refine Io.cast (Io.bind (R := fun p : List Byte × HsG => HsI rounds q ⟨s.pad, false, s.master⟩ p.2) (d := 0) ?_ ?_) (add_zero _)
    · refine Io.bind (io_prfCall hL hc g _ (n := 1) rfl (by decide) (by decide) rfl (by omega)) ?_
      rintro ⟨r, h⟩ ⟨e, hh⟩
      exact Io.cast (Io.bind (Io.reveal _ _) fun _ _ => Io.pure hh) (by rw [add_zero, e]; rfl)
    · rintro ⟨o, h⟩ hh
      exact Io.pure hh
  | serverFinished g l t =>
    have ho : l.length + t.length < 2 ^ 55 := ho
    refine Io.cast (Io.bind (R := fun p : List Byte × HsG => HsI rounds q ⟨s.pad, false, s.master⟩ p.2) (d := 0) ?_ ?_) (add_zero _)
    · refine Io.bind (io_prfCall hL hc g _ (n := 1) rfl (by decide) (by decide) rfl (by omega)) ?_
      rintro ⟨r, h⟩ ⟨e, hh⟩
      exact Io.cast (Io.bind (Io.reveal _ _) fun _ _ => Io.pure hh) (by rw [add_zero, e]; rfl)
    · rintro ⟨o, h⟩ hh
      exact Io.pure hh
  | newAead j cl =>
    refine Io.cast (Io.bind (io_aeadNew _ _ _) ?_) (add_zero _)
    rintro ⟨H, a⟩ _
    exact Io.pure (by rw [hset]; exact hc)
  | encrypt j cl iv n sec =>
    refine Io.cast (Io.bind (Io.lift _) fun a _ => Io.cast (Io.bind (io_encrypt hL _ _ _ _ _) ?_) (add_zero _)) (zero_add _)
    rintro ⟨z, a⟩ _
    exact Io.pure (by rw [hset]; exact hc)
  | decrypt j cl iv n sec =>
    refine Io.cast (Io.bind (Io.lift _) fun a _ => Io.cast (Io.bind (io_decrypt hL _ _ _ _ _) ?_) (add_zero _)) (zero_add _)
    rintro ⟨z, a⟩ _
    exact Io.pure (by rw [hset]; exact hc)

omit hL in
theorem step_master (rounds : Bool) (q : Nat) (s : Spec.Profile.State) (c : Spec.Profile.Call) : (Spec.Profile.step rounds q s c).2.master ≤ s.master + 384 := by
  cases c <;> simp only [Spec.Profile.step] <;> omega

theorem io_run {rounds : Bool} {q : Nat} (hq : bnNumBytes q < 2 ^ 56) : ∀ (ops : List Call) {s : Spec.Profile.State} (_ : s.master + 384 * ops.length < 2 ^ 62) {c : ConnG}
    (_ : HsI rounds q s c.hs) (_ : ∀ op ∈ ops, Small op),
    Io (c.run L ops) (Spec.Profile.run rounds (bnNumBytes q) s (ops.map shape)) (fun _ => True)
  | [], _, _, _, _, _ => Io.pure trivial
  | op :: ops, s, hm, c, hc, ho => by
    rw [List.length_cons] at hm
    have := step_master rounds (bnNumBytes q) s (shape op)
    refine Io.bind (io_step hL hq (by omega) hc op (ho op (List.mem_cons_self ..))) ?_
    rintro ⟨o, c'⟩ hc'
    refine Io.cast (Io.bind (io_run hq ops (by omega) hc' fun op h => ho op (List.mem_cons_of_mem _ h)) ?_) (add_zero _)
    rintro ⟨os, c''⟩ _
    exact Io.pure trivial

end Verif.Lemmas.Profile
