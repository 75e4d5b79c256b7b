import Verif.Lemmas.GateLib
import Verif.Lemmas.SHA256
import Verif.Lemmas.SHADigest

/-! The gate programs of `SHA256` compute the values of the word-level model. -/

namespace Verif.Lemmas.Gate
open Verif.Model Verif.Model.Gate
open Verif.Lemmas (W32)

theorem Ref.foldRange {α β : Type} {f : α → Nat → M α} {g : β → Nat → β} {R : Nat → Sess → α → β → Prop} (n : Nat)
    (h : ∀ s a b i, i < n → R i s a b → Ref s (f a i) (fun t a' => R (i + 1) t a' (g b i))) :
    ∀ {s : Sess} {a : α} {b : β}, R 0 s a b → Ref s ((List.range n).foldlM f a) (fun t a' => R n t a' ((List.range n).foldl g b)) := by
  have aux : ∀ (m i : Nat), i + m ≤ n → ∀ {s : Sess} {a : α} {b : β}, R i s a b →
      Ref s ((List.range' i m).foldlM f a) (fun t a' => R (i + m) t a' ((List.range' i m).foldl g b)) := by
    intro m
    induction m with
    | zero => intro i _ s a b r; exact Ref.pure r
    | succ m ih =>
      intro i hi s a b r
      simp only [List.range'_succ, List.foldlM_cons, List.foldl_cons]
      refine Ref.bind (h s a b i (by omega) r) fun a' t _ r' => ?_
      have := ih (i + 1) (by omega) r'
      rwa [show i + 1 + m = i + (m + 1) by omega] at this
  intro s a b r
  have := aux n 0 (by omega) r
  rwa [Nat.zero_add, ← List.range_eq_range'] at this

/-- A word. -/
def W (s : Sess) (x : SInt) (v : Integer) : Prop := IR s x v ∧ v.length = 32

theorem W.mono {s t : Sess} {x : SInt} {v : Integer} (h : W s x v) (e : Ext s t) : W t x v := ⟨h.1.mono e, h.2⟩

theorem W.xor {s : Sess} {a b : SInt} {x y : Integer} (ha : W s a x) (hb : W s b y) :
    Ref s (xorI a b) (fun t w => W t w (Integer.xor x y)) :=
  (Ref.xorI ha.1 hb.1).mono fun _ _ _ h => ⟨h, by simp [ha.2, hb.2]⟩

theorem W.and {s : Sess} {a b : SInt} {x y : Integer} (ha : W s a x) (hb : W s b y) :
    Ref s (andI a b) (fun t w => W t w (Integer.and x y)) :=
  (Ref.andI ha.1 hb.1).mono fun _ _ _ h => ⟨h, by simp [ha.2, hb.2]⟩

theorem W.rrot {s : Sess} {a : SInt} {x : Integer} (ha : W s a x) (k : Nat) :
    Ref s (Gate.rrot a k) (fun t w => W t w (Verif.Model.rrot x k)) :=
  (Ref.rrot ha.1 k).mono fun _ _ _ h => ⟨h, by simp [ha.2]⟩

theorem W.shr {s : Sess} {a : SInt} {x : Integer} (ha : W s a x) (k : Nat) : W s (Gate.shr a k) (Integer.shr x k) :=
  ⟨ha.1.shr k, by simp [ha.2]⟩

theorem W.word {s : Sess} (n : Nat) : W s (wordG n) (SHA.word n) := ⟨IR.pubInt 32 n, by simp [SHA.word]⟩

/-- A list of `n` words. -/
def WL (n : Nat) (s : Sess) (x : List SInt) (v : List Integer) : Prop := IRL s x v ∧ W32 v ∧ v.length = n

theorem WL.mono {n : Nat} {s t : Sess} {x : List SInt} {v : List Integer} (h : WL n s x v) (e : Ext s t) : WL n t x v := ⟨h.1.mono e, h.2⟩

theorem WL.getD {n : Nat} {s : Sess} {x : List SInt} {v : List Integer} (h : WL n s x v) {i : Nat} (hi : i < n) :
    W s (x.getD i []) (v.getD i []) := ⟨h.1.getD i, h.2.1.getD (by rw [h.2.2]; exact hi)⟩

theorem WL.snoc {n : Nat} {s : Sess} {x : List SInt} {v : List Integer} (h : WL n s x v) {a : SInt} {y : Integer} (ha : W s a y) :
    WL (n + 1) s (x ++ [a]) (v ++ [y]) :=
  ⟨h.1.append (.cons ha.1 .nil), by
    intro z hz
    rcases List.mem_append.1 hz with hz | hz
    · exact h.2.1 z hz
    · rw [List.mem_singleton.1 hz]; exact ha.2, by simp [h.2.2]⟩

theorem WL.words {s : Sess} (l : List Nat) : WL l.length s (l.map wordG) (l.map SHA.word) :=
  ⟨IRL.map l fun i => (W.word i).1, by
    intro z hz
    obtain ⟨i, -, rfl⟩ := List.mem_map.1 hz
    exact (W.word (s := s) i).2, by simp⟩

variable {L : Lib} (hL : LibSound L)
include hL

theorem W.add {s : Sess} {a b : SInt} {x y : Integer} (ha : W s a x) (hb : W s b y) :
    Ref s (L.add a b) (fun t w => W t w (Integer.add x y)) :=
  (hL.add ha.1 hb.1 (by rw [ha.2, hb.2])).mono fun _ _ _ h => ⟨h, by simp [ha.2]⟩

omit hL in
theorem ref_smallSigma {s : Sess} {a : SInt} {x : Integer} (ha : W s a x) (p q r : Nat) : Ref s (smallSigma p q r a)
    (fun t w => W t w (Integer.xor (Integer.xor (Verif.Model.rrot x p) (Verif.Model.rrot x q)) (Integer.shr x r))) := by
  unfold smallSigma
  refine Ref.bind (ha.rrot p) fun _ u e h1 => ?_
  lift_ext e
  refine Ref.bind (ha.rrot q) fun _ u e h2 => ?_
  lift_ext e
  refine Ref.bind (h1.xor h2) fun _ u e h3 => ?_
  lift_ext e
  exact h3.xor (ha.shr r)

omit hL in
theorem ref_bigSigma {s : Sess} {a : SInt} {x : Integer} (ha : W s a x) (p q r : Nat) : Ref s (bigSigma p q r a)
    (fun t w => W t w (Integer.xor (Integer.xor (Verif.Model.rrot x p) (Verif.Model.rrot x q)) (Verif.Model.rrot x r))) := by
  unfold bigSigma
  refine Ref.bind (ha.rrot p) fun _ u e h1 => ?_
  lift_ext e
  refine Ref.bind (ha.rrot q) fun _ u e h2 => ?_
  lift_ext e
  refine Ref.bind (h1.xor h2) fun _ u e h3 => ?_
  lift_ext e
  refine Ref.bind (ha.rrot r) fun _ u e h4 => ?_
  lift_ext e
  exact h3.xor h4

theorem ref_schedule {s : Sess} {c : List SInt} {v : List Integer} (h : WL 16 s c v) :
    Ref s ((List.range 48).foldlM (scheduleStep L) (c.take 16)) (fun t w => WL 64 t w (SHA.schedule v)) := by
  have e1 : c.take 16 = c := List.take_of_length_le (by rw [h.1.length, h.2.2])
  have e2 : v.take 16 = v := List.take_of_length_le (by rw [h.2.2])
  rw [e1, SHA.schedule, e2]
  refine Ref.foldRange (R := fun i s a b => WL (16 + i) s a b) 48 ?_ h
  intro s a b i hi r
  unfold scheduleStep
  simp only
  refine Ref.bind (ref_smallSigma (r.getD (i := i + 16 - 15) (by omega)) 7 18 3) fun _ u e h1 => ?_
  lift_ext e
  refine Ref.bind (ref_smallSigma (r.getD (i := i + 16 - 2) (by omega)) 17 19 10) fun _ u e h2 => ?_
  lift_ext e
  refine Ref.bind (W.add hL (r.getD (i := i + 16 - 16) (by omega)) h1) fun _ u e h3 => ?_
  lift_ext e
  refine Ref.bind (W.add hL h3 (r.getD (i := i + 16 - 7) (by omega))) fun _ u e h4 => ?_
  lift_ext e
  refine Ref.bind (W.add hL h4 h2) fun _ u e h5 => ?_
  lift_ext e
  exact Ref.pure (r.snoc h5)

/-- The working variables. -/
structure WR (s : Sess) (x : WorkG) (v : SHA.Work) : Prop where
  ha : W s x.a v.a
  hb : W s x.b v.b
  hc : W s x.c v.c
  hd : W s x.d v.d
  he : W s x.e v.e
  hf : W s x.f v.f
  hg : W s x.g v.g
  hh : W s x.h v.h

omit hL in
theorem WR.mono {s t : Sess} {x : WorkG} {v : SHA.Work} (h : WR s x v) (e : Ext s t) : WR t x v :=
  ⟨h.ha.mono e, h.hb.mono e, h.hc.mono e, h.hd.mono e, h.he.mono e, h.hf.mono e, h.hg.mono e, h.hh.mono e⟩

theorem ref_round {s : Sess} {x : WorkG} {v : SHA.Work} {k w : SInt} {kv wv : Integer} (h : WR s x v) (hk : W s k kv) (hw : W s w wv) :
    Ref s (roundStepG L x k w) (fun t y => WR t y (SHA.roundStep v kv wv)) := by
  unfold roundStepG
  refine Ref.bind (ref_bigSigma h.he 6 11 25) fun _ u e h1 => ?_
  lift_ext e
  refine Ref.bind (h.hf.xor h.hg) fun _ u e h2 => ?_
  lift_ext e
  refine Ref.bind (h.he.and h2) fun _ u e h3 => ?_
  lift_ext e
  refine Ref.bind (h3.xor h.hg) fun _ u e h4 => ?_
  lift_ext e
  refine Ref.bind (W.add hL h.hh hk) fun _ u e h5 => ?_
  lift_ext e
  refine Ref.bind (W.add hL h5 h1) fun _ u e h6 => ?_
  lift_ext e
  refine Ref.bind (W.add hL h6 h4) fun _ u e h7 => ?_
  lift_ext e
  refine Ref.bind (W.add hL h7 hw) fun _ u e h8 => ?_
  lift_ext e
  refine Ref.bind (ref_bigSigma h.ha 2 13 22) fun _ u e h9 => ?_
  lift_ext e
  refine Ref.bind (h.ha.xor h.hb) fun _ u e h10 => ?_
  lift_ext e
  refine Ref.bind (h.ha.xor h.hc) fun _ u e h11 => ?_
  lift_ext e
  refine Ref.bind (h10.and h11) fun _ u e h12 => ?_
  lift_ext e
  refine Ref.bind (h12.xor h.ha) fun _ u e h13 => ?_
  lift_ext e
  refine Ref.bind (W.add hL h9 h13) fun _ u e h14 => ?_
  lift_ext e
  refine Ref.bind (W.add hL h.hd h8) fun _ u e h15 => ?_
  lift_ext e
  refine Ref.bind (W.add hL h8 h14) fun _ u e h16 => ?_
  lift_ext e
  exact Ref.pure ⟨h16, h.ha, h.hb, h.hc, h15, h.he, h.hf, h.hg⟩

/-- The compression function. -/
theorem ref_compress {s : Sess} {k h c : List SInt} {kv hv cv : List Integer} (hk : WL 64 s k kv) (hh : WL 8 s h hv) (hc : WL 16 s c cv) :
    Ref s (chunkCompressG L k h c) (fun t d => WL 8 t d (SHA.chunkCompress kv hv cv)) := by
  unfold chunkCompressG
  refine Ref.bind (ref_schedule hL hc) fun w u e hw => ?_
  lift_ext e
  simp only
  have h0 : WR u ⟨h.getD 0 [], h.getD 1 [], h.getD 2 [], h.getD 3 [], h.getD 4 [], h.getD 5 [], h.getD 6 [], h.getD 7 []⟩
      ⟨hv.getD 0 [], hv.getD 1 [], hv.getD 2 [], hv.getD 3 [], hv.getD 4 [], hv.getD 5 [], hv.getD 6 [], hv.getD 7 []⟩ :=
    ⟨hh.getD (by omega), hh.getD (by omega), hh.getD (by omega), hh.getD (by omega), hh.getD (by omega), hh.getD (by omega),
      hh.getD (by omega), hh.getD (by omega)⟩
  have hr := Ref.foldRange (f := fun s i => roundStepG L s (k.getD i []) (w.getD i []))
    (g := fun s i => SHA.roundStep s (kv.getD i []) ((SHA.schedule cv).getD i []))
    (R := fun _ s a b => WR s a b ∧ WL 64 s k kv ∧ WL 64 s w (SHA.schedule cv)) 64
    (by
      intro s a b i hi ⟨r1, r2, r3⟩
      exact (ref_round hL r1 (r2.getD hi) (r3.getD hi)).mono fun _ _ e h => ⟨h, r2.mono e, r3.mono e⟩)
    ⟨h0, hk, hw⟩
  refine Ref.bind (hr.mono fun _ _ _ h => h.1) fun x u e hx => ?_
  lift_ext e
  refine Ref.bind (W.add hL hx.ha h0.ha) fun _ u e k1 => ?_
  lift_ext e
  refine Ref.bind (W.add hL hx.hb h0.hb) fun _ u e k2 => ?_
  lift_ext e
  refine Ref.bind (W.add hL hx.hc h0.hc) fun _ u e k3 => ?_
  lift_ext e
  refine Ref.bind (W.add hL hx.hd h0.hd) fun _ u e k4 => ?_
  lift_ext e
  refine Ref.bind (W.add hL hx.he h0.he) fun _ u e k5 => ?_
  lift_ext e
  refine Ref.bind (W.add hL hx.hf h0.hf) fun _ u e k6 => ?_
  lift_ext e
  refine Ref.bind (W.add hL hx.hg h0.hg) fun _ u e k7 => ?_
  lift_ext e
  refine Ref.bind (W.add hL hx.hh h0.hh) fun _ u e k8 => ?_
  lift_ext e
  refine Ref.pure ?_
  have nil : WL 0 u [] [] := ⟨.nil, by simp [W32], rfl⟩
  exact (((((((nil.snoc k1).snoc k2).snoc k3).snoc k4).snoc k5).snoc k6).snoc k7).snoc k8


omit hL in
theorem mapM_rel {ι α β : Type} {R : α → β → Prop} {f : ι → Res α} {g : ι → Res β} (h : ∀ i v, g i = .ok v → ∃ y, f i = .ok y ∧ R y v) :
    ∀ (l : List ι) (vs : List β), l.mapM g = .ok vs → ∃ ys, l.mapM f = .ok ys ∧ List.Forall₂ R ys vs := by
  intro l
  induction l with
  | nil =>
    intro vs e
    simp only [List.mapM_nil] at e
    cases e
    exact ⟨[], by simp only [List.mapM_nil]; rfl, .nil⟩
  | cons i l ih =>
    intro vs e
    simp only [List.mapM_cons, bind, Except.bind, pure, Except.pure] at e ⊢
    cases e1 : g i with
    | error x => rw [e1] at e; cases e
    | ok v =>
      rw [e1] at e
      simp only at e
      cases e2 : l.mapM g with
      | error x => rw [e2] at e; cases e
      | ok ws =>
        rw [e2] at e
        cases e
        obtain ⟨y, h1, h2⟩ := h i v e1
        obtain ⟨ys, h3, h4⟩ := ih ws e2
        rw [h1]
        simp only
        rw [h3]
        exact ⟨_, rfl, .cons h2 h4⟩

omit hL in
theorem inputWords_rel {s : Sess} {x : SInt} {v : Integer} (h : IR s x v) {data : List Integer} (e : SHA.inputWords v = .ok data) :
    ∃ d, inputWordsG x = .ok d ∧ WL (v.length / 32) s d data := by
  unfold SHA.inputWords at e
  unfold inputWordsG
  rw [h.length]
  obtain ⟨d, e1, e2⟩ := mapM_rel (R := fun y r => IR s y r ∧ r.length = 32)
    (f := fun i => Gate.extractInteger x (i * 32) 32) (fun i r er => by
      obtain ⟨y, hy, hr⟩ := h.extract er
      refine ⟨y, hy, hr, ?_⟩
      unfold Verif.Model.extractInteger at er
      split at er
      · cases er
        simp only [List.length_take, List.length_drop]
        omega
      · cases er) _ _ e
  refine ⟨d, e1, e2.imp fun _ _ h => h.1, ?_, ?_⟩
  · intro z hz
    clear e1 e
    induction e2 with
    | nil => cases hz
    | cons h _ ih =>
      rcases List.mem_cons.1 hz with rfl | hz
      · exact h.2
      · exact ih hz
  · rw [← List.Forall₂.length_eq e2]
    have : ∀ (l : List Nat) (d : List SInt), (l.mapM fun i => Gate.extractInteger x (i * 32) 32) = .ok d → d.length = l.length := by
      intro l
      induction l with
      | nil => intro d e; simp only [List.mapM_nil] at e; cases e; rfl
      | cons i l ih =>
        intro d e
        simp only [List.mapM_cons, bind, Except.bind, pure, Except.pure] at e
        cases e1 : Gate.extractInteger x (i * 32) 32 with
        | error _ => rw [e1] at e; cases e
        | ok y =>
          rw [e1] at e
          simp only at e
          cases e2 : (l.mapM fun i => Gate.extractInteger x (i * 32) 32) with
          | error _ => rw [e2] at e; cases e
          | ok ys => rw [e2] at e; cases e; simp [ih ys e2]
    rw [this _ _ e1, List.length_range]

omit hL in
theorem WL.sel {n : Nat} {s : Sess} {x : List SInt} {v : List Integer} (h : WL n s x v) (m : Nat) (f : Nat → Nat) (hf : ∀ i, i < m → f i < n) :
    WL m s ((List.range m).map fun i => x.getD (f i) []) ((List.range m).map fun i => v.getD (f i) []) := by
  refine ⟨IRL.map _ fun i => h.1.getD _, ?_, by simp⟩
  intro z hz
  obtain ⟨i, hi, rfl⟩ := List.mem_map.1 hz
  exact (h.getD (hf i (List.mem_range.1 hi))).2

theorem ref_chunkLoop {s : Sess} {k data dig : List SInt} {kv dv gv : List Integer} {n : Nat} (hk : WL 64 s k kv) (hd : WL (16 * n) s data dv)
    (hg : WL 8 s dig gv) : Ref s (chunkLoopG L k data n dig) (fun t d => WL 8 t d (SHA.chunkLoop kv dv n gv)) := by
  unfold chunkLoopG SHA.chunkLoop
  refine (Ref.foldRange (R := fun _ s a b => WL 8 s a b ∧ WL 64 s k kv ∧ WL (16 * n) s data dv) (n - 1) ?_ ⟨hg, hk, hd⟩).mono
    fun _ _ _ h => h.1
  intro s a b j hj ⟨r1, r2, r3⟩
  refine (ref_compress hL r2 r1 (r3.sel 16 (fun t => t + (j + 1) * 512 / 32) ?_)).mono fun _ _ e h => ⟨h, r2.mono e, r3.mono e⟩
  intro i hi
  show i + (j + 1) * 512 / 32 < 16 * n
  omega

/-- An object and its values; `sec` says that the cached inner state of the rounds-optimised path is usable. -/
structure SR (sec : Bool) (t : Sess) (s : ShaG) (v : SHA.Sha) : Prop where
  gi : s.gcIn = v.gcIn
  go : s.gcOut = v.gcOut
  iv : s.ivIn = v.ivIn
  ps : s.pos = v.pos
  hh : WL 8 t s.h v.h
  hk : WL 64 t s.k v.k
  out : v.gcOut = true → WL 8 t s.ivOut v.ivOut
  inn : sec = true → v.gcIn = true → WL 8 t s.ivInSec v.ivInSec

omit hL in
theorem SR.mono {sec : Bool} {t u : Sess} {s : ShaG} {v : SHA.Sha} (h : SR sec t s v) (e : Ext t u) : SR sec u s v :=
  ⟨h.gi, h.go, h.iv, h.ps, h.hh.mono e, h.hk.mono e, fun x => (h.out x).mono e, fun x y => (h.inn x y).mono e⟩

omit hL in
theorem SR.new (t : Sess) (sec : Bool) : SR sec t {} SHA.Sha.new :=
  ⟨rfl, rfl, rfl, rfl, WL.words SHA.initH, WL.words SHA.initK, (fun h => by cases h), (fun _ h => by cases h)⟩

omit hL in
theorem SR.refresh {sec : Bool} (sec' : Bool) {t : Sess} {s : ShaG} {v : SHA.Sha} (h : SR sec t s v) : SR sec' t s.refresh v.refresh :=
  ⟨rfl, rfl, h.iv, h.ps, WL.words SHA.refreshH, WL.words SHA.refreshK, (fun h => by cases h), (fun _ h => by cases h)⟩

/-- The first chunk of `update` on values. -/
def foV (v : SHA.Sha) (tmp : List Integer) (r : Bool) : List Integer × SHA.Sha :=
  if r then
    if v.gcOut then (v.ivOut, v)
    else
      let dig := SHA.chunkCompress v.k v.h tmp
      (dig, { v with ivOut := dig, gcOut := true, calls := v.calls + 1 })
  else (SHA.chunkCompress v.k v.h tmp, { v with calls := v.calls + 1 })

/-- The first chunk of `opt_rounds_update` on values. -/
def fiV (v : SHA.Sha) (tmp : List Integer) (r : Bool) : List Integer × SHA.Sha :=
  if r then
    if v.gcIn then (v.ivInSec, v)
    else
      let dig := SHA.chunkCompress v.k v.h tmp
      (dig, { v with ivInSec := dig, gcIn := true, calls := v.calls + 1 })
  else (SHA.chunkCompress v.k v.h tmp, { v with calls := v.calls + 1 })

omit hL in
theorem SR.calls {sec : Bool} {t : Sess} {s : ShaG} {v : SHA.Sha} (h : SR sec t s v) (n : Nat) : SR sec t s { v with calls := n } :=
  ⟨h.gi, h.go, h.iv, h.ps, h.hh, h.hk, h.out, h.inn⟩

theorem ref_firstOut {sec : Bool} {t : Sess} {s : ShaG} {v : SHA.Sha} (h : SR sec t s v) {x : List SInt} {y : List Integer}
    (hx : WL 16 t x y) (r : Bool) :
    Ref t (s.firstOut L x r) (fun u b => WL 8 u b.1 (foV v y r).1 ∧ SR sec u b.2 (foV v y r).2) := by
  unfold ShaG.firstOut foV
  cases r with
  | false =>
    simp only [Bool.false_eq_true, if_false]
    refine Ref.bind (ref_compress hL h.hk h.hh hx) fun g u e hg => ?_
    exact Ref.pure ⟨hg, (h.mono e).calls _⟩
  | true =>
    simp only [if_true]
    rw [h.go]
    cases hg : v.gcOut with
    | true =>
      simp only [if_true]
      exact Ref.pure ⟨h.out hg, h⟩
    | false =>
      simp only [Bool.false_eq_true, if_false]
      refine Ref.bind (ref_compress hL h.hk h.hh hx) fun g u e hg => ?_
      lift_ext e
      exact Ref.pure ⟨hg, h.gi, rfl, h.iv, h.ps, h.hh, h.hk, fun _ => hg, h.inn⟩

theorem ref_firstIn {t : Sess} {s : ShaG} {v : SHA.Sha} (h : SR true t s v) {x : List SInt} {y : List Integer}
    (hx : WL 16 t x y) (r : Bool) :
    Ref t (s.firstIn L x r) (fun u b => WL 8 u b.1 (fiV v y r).1 ∧ SR true u b.2 (fiV v y r).2) := by
  unfold ShaG.firstIn fiV
  cases r with
  | false =>
    simp only [Bool.false_eq_true, if_false]
    refine Ref.bind (ref_compress hL h.hk h.hh hx) fun g u e hg => ?_
    exact Ref.pure ⟨hg, (h.mono e).calls _⟩
  | true =>
    simp only [if_true]
    rw [h.gi]
    cases hg : v.gcIn with
    | true =>
      simp only [if_true]
      exact Ref.pure ⟨h.inn rfl hg, h⟩
    | false =>
      simp only [Bool.false_eq_true, if_false]
      refine Ref.bind (ref_compress hL h.hk h.hh hx) fun g u e hg => ?_
      lift_ext e
      exact Ref.pure ⟨hg, rfl, h.go, h.iv, h.ps, h.hh, h.hk, h.out, fun _ _ => hg⟩

theorem ref_chunks {sec : Bool} {t : Sess} {s : ShaG} {v : SHA.Sha} (h : SR sec t s v) {data dig : List SInt} {dv gv : List Integer} {n : Nat}
    (hd : WL (16 * n) t data dv) (hg : WL 8 t dig gv) :
    Ref t (do
        let dig ← chunkLoopG L s.k data n dig
        pure (dig, s))
      (fun u b => WL 8 u b.1 (SHA.chunkLoop v.k dv n gv) ∧ SR sec u b.2 { v with calls := v.calls + (n - 1) }) :=
  Ref.bind (ref_chunkLoop hL h.hk hd hg) fun _ _ e hb => Ref.pure ⟨hb, (h.mono e).calls _⟩

theorem ref_update {sec : Bool} {t : Sess} {s : ShaG} {v : SHA.Sha} (h : SR sec t s v) {x : SInt} {p : Integer} (hx : IR t x p) (r : Bool)
    {d : List Integer} {v' : SHA.Sha} (e : v.update p r = .ok (d, v')) :
    Ref t (s.update L x r) (fun u a => WL 8 u a.1 d ∧ SR sec u a.2 v') := by
  unfold SHA.Sha.update at e
  unfold ShaG.update
  rw [hx.length]
  by_cases h1 : p.length % 512 ≠ 0
  · rw [if_pos h1] at e; cases e
  rw [if_neg h1] at e ⊢
  simp only [bind, Except.bind] at e
  cases e2 : SHA.inputWords p with
  | error y => rw [e2] at e; cases e
  | ok data =>
    rw [e2] at e
    simp only at e
    obtain ⟨dg, e3, hd⟩ := inputWords_rel hx e2
    by_cases h3 : p.length / 512 = 0
    · rw [if_pos h3] at e; cases e
    rw [if_neg h3] at e
    have hd' : WL (16 * (p.length / 512)) t dg data := by
      rwa [show p.length / 32 = 16 * (p.length / 512) by omega] at hd
    have htmp := hd'.sel 16 (fun j => j) (fun i hi => by omega)
    have e' : (SHA.chunkLoop (foV v ((List.range 16).map fun j => data.getD j []) r).2.k data (p.length / 512)
          (foV v ((List.range 16).map fun j => data.getD j []) r).1,
        { (foV v ((List.range 16).map fun j => data.getD j []) r).2 with
          calls := (foV v ((List.range 16).map fun j => data.getD j []) r).2.calls + (p.length / 512 - 1) }) = (d, v') :=
      Except.ok.inj e
    cases e'
    refine Ref.bind (Ref.lift (R := fun u a => u = t ∧ a = dg) e3 ⟨rfl, rfl⟩) fun a u ex ha => ?_
    obtain ⟨rfl, rfl⟩ := ha
    rw [if_neg h3]
    refine Ref.bind (ref_firstOut hL h htmp r) fun b u e hb => ?_
    obtain ⟨g, s'⟩ := b
    exact ref_chunks hL hb.2 (hd'.mono e) hb.1

theorem ref_roundsUpdate {t : Sess} {s : ShaG} {v : SHA.Sha} (h : SR true t s v) {x : SInt} {p : Integer} (hx : IR t x p) (r : Bool)
    {d : List Integer} {v' : SHA.Sha} (e : v.optRoundsUpdate p r = .ok (d, v')) :
    Ref t (s.optRoundsUpdate L x r) (fun u a => WL 8 u a.1 d ∧ SR true u a.2 v') := by
  unfold SHA.Sha.optRoundsUpdate at e
  unfold ShaG.optRoundsUpdate
  rw [hx.length]
  by_cases h1 : p.length % 512 ≠ 0
  · rw [if_pos h1] at e; cases e
  rw [if_neg h1] at e ⊢
  simp only [bind, Except.bind] at e
  cases e2 : SHA.inputWords p with
  | error y => rw [e2] at e; cases e
  | ok data =>
    rw [e2] at e
    simp only at e
    obtain ⟨dg, e3, hd⟩ := inputWords_rel hx e2
    by_cases h3 : p.length / 512 = 0
    · rw [if_pos h3] at e; cases e
    rw [if_neg h3] at e
    have hd' : WL (16 * (p.length / 512)) t dg data := by
      rwa [show p.length / 32 = 16 * (p.length / 512) by omega] at hd
    have htmp := hd'.sel 16 (fun j => j) (fun i hi => by omega)
    have e' : (SHA.chunkLoop (fiV v ((List.range 16).map fun j => data.getD j []) r).2.k data (p.length / 512)
          (fiV v ((List.range 16).map fun j => data.getD j []) r).1,
        { (fiV v ((List.range 16).map fun j => data.getD j []) r).2 with
          calls := (fiV v ((List.range 16).map fun j => data.getD j []) r).2.calls + (p.length / 512 - 1) }) = (d, v') :=
      Except.ok.inj e
    cases e'
    refine Ref.bind (Ref.lift (R := fun u a => u = t ∧ a = dg) e3 ⟨rfl, rfl⟩) fun a u ex ha => ?_
    obtain ⟨rfl, rfl⟩ := ha
    rw [if_neg h3]
    refine Ref.bind (ref_firstIn hL h htmp r) fun b u e hb => ?_
    obtain ⟨g, s'⟩ := b
    exact ref_chunks hL hb.2 (hd'.mono e) hb.1

omit hL in
theorem IR.padding {s : Sess} {x : SInt} {v : Integer} (h : IR s x v) : IR s (paddingG x) (SHA.padding v) := by
  unfold paddingG SHA.padding
  rw [h.length]
  exact IR.concat (IRL.single (IR.pubInt _ _)) (IR.concat (IRL.single (IR.pubInt _ _)) (IR.concat (IRL.single (IR.pubInt _ _)) h))

theorem ref_digest {sec : Bool} {t : Sess} {s : ShaG} {v : SHA.Sha} (h : SR sec t s v) {x : SInt} {p : Integer} (hx : IR t x p) (r : Bool)
    {d : List Integer} {v' : SHA.Sha} (e : v.digest p r = .ok (d, v')) :
    Ref t (s.digest L x r) (fun u a => WL 8 u a.1 d ∧ SR sec u a.2 v') := ref_update hL h hx.padding r e

theorem ref_roundsDigest {t : Sess} {s : ShaG} {v : SHA.Sha} (h : SR true t s v) {x : SInt} {p : Integer} (hx : IR t x p) (r : Bool)
    {d : List Integer} {v' : SHA.Sha} (e : v.optRoundsDigest p r = .ok (d, v')) :
    Ref t (s.optRoundsDigest L x r) (fun u a => WL 8 u a.1 d ∧ SR true u a.2 v') := ref_roundsUpdate hL h hx.padding r e

omit hL in
theorem ref_revealWords {t : Sess} {x : List SInt} {v : List Integer} (h : IRL t x v) :
    Ref t (revealWordsG x) (fun _ o => o = SHA.revealWords v) := by
  unfold revealWordsG
  refine Ref.bind (Ref.reveal _ (IR.reverseConcat h .nil)) fun o u e ho => ?_
  subst ho
  exact Ref.pure rfl

theorem ref_compressOpen {sec : Bool} {t : Sess} {s : ShaG} {v : SHA.Sha} (h : SR sec t s v) {x : List SInt} {y : List Integer}
    (hx : WL 16 t x y) : Ref t (s.compressOpen L x) (fun _ o => o = SHA.revealWords (SHA.chunkCompress v.k v.h y)) := by
  unfold ShaG.compressOpen
  refine Ref.bind (ref_compress hL h.hk h.hh hx) fun g u e hg => ?_
  exact ref_revealWords hg.1

theorem ref_optFirst {sec : Bool} {t : Sess} {s : ShaG} {v : SHA.Sha} (h : SR sec t s v) {x : SInt} {p : Integer} (hx : IR t x p) (r : Bool)
    {d : List (BitVec 32)} {v' : SHA.Sha} (e : v.optFirst p r false = .ok (d, v')) :
    Ref t (s.optFirst L x r) (fun u a => a.1 = d ∧ SR false u a.2 v') := by
  have hf : ∀ {u : Sess} {s : ShaG} {v : SHA.Sha}, SR sec u s v → SR false u s v :=
    fun h => ⟨h.gi, h.go, h.iv, h.ps, h.hh, h.hk, h.out, fun h => by cases h⟩
  unfold SHA.Sha.optFirst at e
  unfold ShaG.optFirst
  rw [hx.length]
  by_cases h1 : p.length ≠ 512
  · rw [if_pos h1] at e; cases e
  rw [if_neg h1] at e ⊢
  simp only [bind, Except.bind] at e
  cases e2 : SHA.inputWords p with
  | error y => rw [e2] at e; cases e
  | ok data =>
    rw [e2] at e
    simp only at e
    obtain ⟨dg, e3, hd⟩ := inputWords_rel hx e2
    rw [show p.length / 32 = 16 by omega] at hd
    refine Ref.bind (Ref.lift (R := fun u a => u = t ∧ a = dg) e3 ⟨rfl, rfl⟩) fun a u ex ha => ?_
    obtain ⟨rfl, rfl⟩ := ha
    cases r with
    | false =>
      simp only [Bool.false_eq_true, if_false] at e ⊢
      cases e
      refine Ref.bind (ref_compressOpen hL h hd) fun g u e hg => ?_
      exact Ref.pure ⟨hg, (hf (h.mono e)).calls _⟩
    | true =>
      simp only [if_true, Bool.not_false] at e ⊢
      rw [h.gi]
      cases hg : v.gcIn with
      | false =>
        simp only [hg, Bool.not_false, if_true] at e ⊢
        cases e
        refine Ref.bind (ref_compressOpen hL h hd) fun g u e hg => ?_
        subst hg
        lift_ext e
        refine Ref.pure ⟨rfl, rfl, h.go, ?_, ?_, h.hh, h.hk, h.out, fun h => by cases h⟩
        · simp only [h.iv]
        · simp only [h.ps]
      | true =>
        simp only [hg, Bool.not_true, Bool.false_eq_true, if_false] at e ⊢
        rw [h.iv, h.ps]
        cases e4 : v.ivIn[v.pos.toNat]? with
        | none => rw [e4] at e; cases e
        | some dig =>
          rw [e4] at e
          cases e
          exact Ref.pure ⟨rfl, hf h⟩

theorem ref_optDigest {sec : Bool} {t : Sess} {s : ShaG} {v : SHA.Sha} (h : SR sec t s v) (g : List Byte) {x : SInt} {p : Integer}
    (hx : IR t x p) (pub : List Byte) (r : Bool) {d : List (BitVec 32)} {v' : SHA.Sha} (e : v.optDigest g p pub r false = .ok (d, v')) :
    Ref t (s.optDigest L g x pub r) (fun u a => a.1 = d ∧ SR false u a.2 v') := by
  unfold SHA.Sha.optDigest SHA.Sha.optUpdate at e
  unfold ShaG.optDigest
  simp only [bind, Except.bind] at e
  cases e2 : v.optFirst p r false with
  | error y => rw [e2] at e; cases e
  | ok q =>
    rw [e2] at e
    obtain ⟨q1, q2⟩ := q
    cases e
    refine Ref.bind (ref_optFirst hL h hx r e2) fun b u e hb => ?_
    obtain ⟨b1, b2⟩ := b
    obtain ⟨hb1, hb2⟩ := hb
    simp only at hb1 hb2
    subst hb1
    exact Ref.pure ⟨rfl, hb2⟩

end Verif.Lemmas.Gate
