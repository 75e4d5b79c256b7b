import Verif.Lemmas.Depend
import Verif.Lemmas.PrfRef

/-! SHA-256, HMAC and the PRF: which words depend on an input. -/

namespace Verif.Lemmas.Gate
open Verif.Model Verif.Model.Gate Verif.Spec.Circuit

/-- A word; if the flag is set all its bits depend on an input. -/
def Wd (s : Sess) (f : Bool) (x : SInt) : Prop := x.length = 32 ∧ (f = true → Dp s x)

theorem Wd.mono {s t : Sess} (e : DExt s t) {f : Bool} {x : SInt} (h : Wd s f x) : Wd t f x := ⟨h.1, fun hf => (h.2 hf).mono e⟩
theorem Wd.weak {s : Sess} {f : Bool} {x : SInt} (h : Wd s f x) : Wd s false x := ⟨h.1, fun hf => by cases hf⟩
theorem Wd.pub {s : Sess} (n : Nat) : Wd s false (wordG n) := ⟨by simp [wordG, pubInt], fun hf => by cases hf⟩

theorem Sec.xorW {s : Sess} {f g : Bool} {x y : SInt} (hx : Wd s f x) (hy : Wd s g y) : Sec s (Gate.xorI x y) (fun t r => Wd t (f || g) r) := by
  refine (Sec.xorI x y).mono fun t r e h => ⟨by rw [h.1, hx.1, hy.1]; rfl, fun hf => Dp.of_at fun i hi => ?_⟩
  have hi : i < 32 := by rw [h.1, hx.1, hy.1] at hi; exact hi
  refine h.2 i (by rw [hx.1, hy.1]; exact hi) ?_
  rcases Bool.or_eq_true_iff.mp hf with hf | hf
  · exact Or.inl ((hx.2 hf).at (by rw [hx.1]; exact hi))
  · exact Or.inr ((hy.2 hf).at (by rw [hy.1]; exact hi))

theorem Sec.andW {s : Sess} {f g : Bool} {x y : SInt} (hx : Wd s f x) (hy : Wd s g y) : Sec s (Gate.andI x y) (fun t r => Wd t (f && g) r) := by
  refine (Sec.andI x y).mono fun t r e h => ⟨by rw [h.1, hx.1, hy.1]; rfl, fun hf => Dp.of_at fun i hi => ?_⟩
  have hi : i < 32 := by rw [h.1, hx.1, hy.1] at hi; exact hi
  obtain ⟨h1, h2⟩ := (Bool.and_eq_true _ _).mp hf
  exact h.2 i (by rw [hx.1, hy.1]; exact hi) ((hx.2 h1).at (by rw [hx.1]; exact hi)) ((hy.2 h2).at (by rw [hy.1]; exact hi))

theorem length_shr (x : SInt) (k : Nat) : (shr x k).length = x.length := by
  unfold shr
  split
  · simp
  · simp; omega

theorem length_shl (x : SInt) (k : Nat) : (shl x k).length = x.length := by
  unfold shl
  split
  · simp
  · simp; omega

theorem Wd.shr {s : Sess} {f : Bool} {x : SInt} (h : Wd s f x) (k : Nat) : Wd s false (shr x k) :=
  ⟨by rw [length_shr, h.1], fun hf => by cases hf⟩

theorem Sec.rrot {s : Sess} {f : Bool} {x : SInt} (h : Wd s f x) (k : Nat) (hk : k ≤ 32) : Sec s (rrot x k) (fun t r => Wd t f r) := by
  refine (Sec.xorI _ _).mono fun t r e hr => ?_
  rw [length_shr, length_shl, h.1] at hr
  refine ⟨hr.1, fun hf => Dp.of_at fun i hi => ?_⟩
  rw [hr.1] at hi
  have hi : i < 32 := hi
  refine hr.2 i hi ?_
  have hd := h.2 hf
  by_cases hlt : i < 32 - k
  · left
    unfold Gate.shr
    rw [if_neg (by rw [h.1]; omega)]
    rw [dAt_append_left (by rw [List.length_drop, h.1]; exact hlt)]
    exact (hd.drop k).at (by rw [List.length_drop, h.1]; exact hlt)
  · right
    unfold shl
    rw [if_neg (by rw [h.1]; omega), dAt_append_right (by rw [List.length_replicate]; omega), List.length_replicate]
    refine (hd.take _).at ?_
    rw [List.length_take, h.1]; omega

theorem Sec.smallSigma {s : Sess} {f : Bool} {x : SInt} (h : Wd s f x) (a b c : Nat) (ha : a ≤ 32) (hb : b ≤ 32) :
    Sec s (smallSigma a b c x) (fun t r => Wd t f r) := by
  refine Sec.bind (Sec.rrot h a ha) fun p u e hp => ?_
  refine Sec.bind (Sec.rrot (h.mono e) b hb) fun q u e' hq => ?_
  refine Sec.bind (Sec.xorW (hp.mono e') hq) fun t u e'' ht => ?_
  have := Sec.xorW ht ((h.mono (e.trans (e'.trans e''))).shr c)
  rwa [Bool.or_self, Bool.or_false] at this

theorem Sec.bigSigma {s : Sess} {f : Bool} {x : SInt} (h : Wd s f x) (a b c : Nat) (ha : a ≤ 32) (hb : b ≤ 32) (hc : c ≤ 32) :
    Sec s (bigSigma a b c x) (fun t r => Wd t f r) := by
  refine Sec.bind (Sec.rrot h a ha) fun p u e hp => ?_
  refine Sec.bind (Sec.rrot (h.mono e) b hb) fun q u e' hq => ?_
  refine Sec.bind (Sec.xorW (hp.mono e') hq) fun t u e'' ht => ?_
  refine Sec.bind (Sec.rrot (h.mono (e.trans (e'.trans e''))) c hc) fun r u e3 hr => ?_
  have := Sec.xorW (ht.mono e3) hr
  rwa [Bool.or_self, Bool.or_self] at this

section
variable {L : Lib} (hL : LibDep L)
include hL

theorem Sec.addW {s : Sess} {f g : Bool} {x y : SInt} (hx : Wd s f x) (hy : Wd s g y) : Sec s (L.add x y) (fun t r => Wd t (f || g) r) := by
  refine (hL.add s x y (by rw [hx.1, hy.1])).mono fun t r e h => ⟨by rw [h.1, hx.1], fun hf => Dp.of_at fun i hi => ?_⟩
  have hi : i < 32 := by rw [h.1, hx.1] at hi; exact hi
  refine h.2 i ?_
  rcases Bool.or_eq_true_iff.mp hf with hf | hf
  · exact Or.inl ((hx.2 hf).at (by rw [hx.1]; exact hi))
  · exact Or.inr ((hy.2 hf).at (by rw [hy.1]; exact hi))

/-- The flags of a list of words. -/
abbrev Ws (s : Sess) (fs : List Bool) (xs : List SInt) : Prop := List.Forall₂ (Wd s) fs xs

omit hL in
theorem Ws.mono {s t : Sess} (e : DExt s t) {fs : List Bool} {xs : List SInt} (h : Ws s fs xs) : Ws t fs xs := h.imp fun _ _ x => x.mono e

omit hL in
theorem Ws.get {s : Sess} {fs : List Bool} {xs : List SInt} (h : Ws s fs xs) : ∀ {i : Nat}, i < fs.length → Wd s (fs.getD i false) (xs.getD i []) := by
  induction h with
  | nil => intro i hi; simp at hi
  | cons h _ ih =>
    intro i hi
    cases i with
    | zero => exact h
    | succ i => exact ih (by simpa using hi)

omit hL in
theorem Ws.weak {s : Sess} {fs : List Bool} {xs : List SInt} (h : Ws s fs xs) : Ws s (List.replicate fs.length false) xs := by
  induction h with
  | nil => exact .nil
  | cons h _ ih => exact .cons h.weak ih

/-- The flags of the message schedule. -/
def schedF (fs : List Bool) (j : Nat) : List Bool :=
  fs ++ [fs.getD (j + 16 - 16) false || fs.getD (j + 16 - 15) false || fs.getD (j + 16 - 7) false || fs.getD (j + 16 - 2) false]

theorem Sec.scheduleStep {s : Sess} {fs : List Bool} {w : List SInt} (h : Ws s fs w) (j : Nat) (hj : fs.length = 16 + j) :
    Sec s (scheduleStep L w j) (fun t r => Ws t (schedF fs j) r ∧ (schedF fs j).length = 16 + (j + 1)) := by
  unfold Gate.scheduleStep
  refine Sec.bind (Sec.smallSigma (h.get (by omega)) _ _ _ (by decide) (by decide)) fun s0 u e h0 => ?_
  refine Sec.bind (Sec.smallSigma ((h.mono e).get (by omega)) _ _ _ (by decide) (by decide)) fun s1 u1 e1 h1 => ?_
  refine Sec.bind (Sec.addW hL ((h.mono (e.trans e1)).get (by omega)) (h0.mono e1)) fun t u2 e2 h2 => ?_
  refine Sec.bind (Sec.addW hL h2 ((h.mono (e.trans (e1.trans e2))).get (by omega))) fun t u3 e3 h3 => ?_
  refine Sec.bind (Sec.addW hL h3 (h1.mono (e2.trans e3))) fun t u4 e4 h4 => ?_
  refine Sec.pure ⟨?_, by simp [schedF, hj]; omega⟩
  exact List.rel_append (h.mono (e.trans (e1.trans (e2.trans (e3.trans e4))))) (.cons h4 .nil)

/-- The flags of the working variables. -/
structure FW where
  a : Bool
  b : Bool
  c : Bool
  d : Bool
  e : Bool
  f : Bool
  g : Bool
  h : Bool
deriving DecidableEq

structure WW (s : Sess) (F : FW) (x : WorkG) : Prop where
  a : Wd s F.a x.a
  b : Wd s F.b x.b
  c : Wd s F.c x.c
  d : Wd s F.d x.d
  e : Wd s F.e x.e
  f : Wd s F.f x.f
  g : Wd s F.g x.g
  h : Wd s F.h x.h

omit hL in
theorem WW.mono {s t : Sess} (e : DExt s t) {f : FW} {x : WorkG} (h : WW s f x) : WW t f x :=
  ⟨h.a.mono e, h.b.mono e, h.c.mono e, h.d.mono e, h.e.mono e, h.f.mono e, h.g.mono e, h.h.mono e⟩

def roundF (s : FW) (w : Bool) : FW :=
  let t1 := s.h || false || s.e || (s.e && (s.f || s.g) || s.g) || w
  let t2 := s.a || ((s.a || s.b) && (s.a || s.c) || s.a)
  { h := s.g, g := s.f, f := s.e, e := s.d || t1, d := s.c, c := s.b, b := s.a, a := t1 || t2 }

theorem Sec.roundStepG {s : Sess} {f : FW} {x : WorkG} (h : WW s f x) {k w : SInt} (hk : Wd s false k) {g : Bool} (hw : Wd s g w) :
    Sec s (roundStepG L x k w) (fun t r => WW t (roundF f g) r) := by
  unfold Gate.roundStepG
  refine Sec.bind (Sec.bigSigma h.e _ _ _ (by decide) (by decide) (by decide)) fun S1 u e hS1 => ?_
  replace h := h.mono e; replace hk := hk.mono e; replace hw := hw.mono e; clear e
  refine Sec.bind (Sec.xorW h.f h.g) fun t u e ht => ?_
  replace h := h.mono e; replace hk := hk.mono e; replace hw := hw.mono e; replace hS1 := hS1.mono e; clear e
  refine Sec.bind (Sec.andW h.e ht) fun t u e ht => ?_
  replace h := h.mono e; replace hk := hk.mono e; replace hw := hw.mono e; replace hS1 := hS1.mono e; clear e
  refine Sec.bind (Sec.xorW ht h.g) fun ch u e hch => ?_
  replace h := h.mono e; replace hk := hk.mono e; replace hw := hw.mono e; replace hS1 := hS1.mono e; clear e
  refine Sec.bind (Sec.addW hL h.h hk) fun t u e ht => ?_
  replace h := h.mono e; replace hw := hw.mono e; replace hS1 := hS1.mono e; replace hch := hch.mono e; clear e
  refine Sec.bind (Sec.addW hL ht hS1) fun t u e ht => ?_
  replace h := h.mono e; replace hw := hw.mono e; replace hch := hch.mono e; clear e
  refine Sec.bind (Sec.addW hL ht hch) fun t u e ht => ?_
  replace h := h.mono e; replace hw := hw.mono e; clear e
  refine Sec.bind (Sec.addW hL ht hw) fun temp1 u e h1 => ?_
  replace h := h.mono e; clear e
  refine Sec.bind (Sec.bigSigma h.a _ _ _ (by decide) (by decide) (by decide)) fun S0 u e hS0 => ?_
  replace h := h.mono e; replace h1 := h1.mono e; clear e
  refine Sec.bind (Sec.xorW h.a h.b) fun x u e hx => ?_
  replace h := h.mono e; replace h1 := h1.mono e; replace hS0 := hS0.mono e; clear e
  refine Sec.bind (Sec.xorW h.a h.c) fun y u e hy => ?_
  replace h := h.mono e; replace h1 := h1.mono e; replace hS0 := hS0.mono e; replace hx := hx.mono e; clear e
  refine Sec.bind (Sec.andW hx hy) fun t u e ht => ?_
  replace h := h.mono e; replace h1 := h1.mono e; replace hS0 := hS0.mono e; clear e
  refine Sec.bind (Sec.xorW ht h.a) fun maj u e hm => ?_
  replace h := h.mono e; replace h1 := h1.mono e; replace hS0 := hS0.mono e; clear e
  refine Sec.bind (Sec.addW hL hS0 hm) fun temp2 u e h2 => ?_
  replace h := h.mono e; replace h1 := h1.mono e; clear e
  refine Sec.bind (Sec.addW hL h.d h1) fun e' u e he => ?_
  replace h := h.mono e; replace h1 := h1.mono e; replace h2 := h2.mono e; clear e
  refine Sec.bind (Sec.addW hL h1 h2) fun a' u e ha => ?_
  replace h := h.mono e; replace he := he.mono e
  exact Sec.pure ⟨ha, h.a, h.b, h.c, he, h.e, h.f, h.g⟩

/-- The flags of a compressed chunk. -/
def compressF (fh fc : List Bool) : List Bool :=
  let w := (List.range 48).foldl schedF fc
  let s0 : FW := ⟨fh.getD 0 false, fh.getD 1 false, fh.getD 2 false, fh.getD 3 false, fh.getD 4 false, fh.getD 5 false, fh.getD 6 false,
    fh.getD 7 false⟩
  let s := (List.range 64).foldl (fun s i => roundF s (w.getD i false)) s0
  [s.a || s0.a, s.b || s0.b, s.c || s0.c, s.d || s0.d, s.e || s0.e, s.f || s0.f, s.g || s0.g, s.h || s0.h]

theorem Sec.chunkCompress {s : Sess} {k h chunk : List SInt} {fh fc : List Bool} (hk : ∀ i < 64, ∀ s, Wd s false (k.getD i []))
    (hh : Ws s fh h) (hh8 : fh.length = 8) (hc : Ws s fc chunk) (hc16 : fc.length = 16) :
    Sec s (chunkCompressG L k h chunk) (fun t r => Ws t (compressF fh fc) r) := by
  unfold chunkCompressG
  have ht : chunk.take 16 = chunk := List.take_of_length_le (by rw [← hc.length_eq, hc16])
  rw [ht]
  refine Sec.bind (Sec.foldRange (g := schedF) (R := fun i t w fs => Ws t fs w ∧ fs.length = 16 + i) 48 ?_ ⟨hc, by omega⟩) fun w u e hw => ?_
  · intro s a b i hi r
    exact Sec.scheduleStep hL r.1 i r.2
  obtain ⟨hw, hwl⟩ := hw
  replace hh := hh.mono e
  clear e
  dsimp only
  have h0 : WW u ⟨fh.getD 0 false, fh.getD 1 false, fh.getD 2 false, fh.getD 3 false, fh.getD 4 false, fh.getD 5 false, fh.getD 6 false,
      fh.getD 7 false⟩ ⟨h.getD 0 [], h.getD 1 [], h.getD 2 [], h.getD 3 [], h.getD 4 [], h.getD 5 [], h.getD 6 [], h.getD 7 []⟩ :=
    ⟨hh.get (by omega), hh.get (by omega), hh.get (by omega), hh.get (by omega), hh.get (by omega), hh.get (by omega), hh.get (by omega),
      hh.get (by omega)⟩
  refine Sec.bind (Sec.foldRange (g := fun s i => roundF s (((List.range 48).foldl schedF fc).getD i false))
    (R := fun _ t x f => WW t f x ∧ Ws t ((List.range 48).foldl schedF fc) w) 64 ?_ ⟨h0, hw⟩) fun x u1 e hx => ?_
  · intro s a b i hi r
    have hwi := r.2.get (i := i) (by omega)
    intro O a' t hs ht
    obtain ⟨p1, p2, p3⟩ := Sec.roundStepG hL r.1 (hk i hi s) hwi O a' t hs ht
    exact ⟨p1, p2, p3, r.2.mono p2⟩
  replace h0 := h0.mono e
  replace hx := hx.1
  clear e
  refine Sec.bind (Sec.addW hL hx.a h0.a) fun a u2 e ha => ?_
  replace hx := hx.mono e; replace h0 := h0.mono e; clear e
  refine Sec.bind (Sec.addW hL hx.b h0.b) fun b u3 e hb => ?_
  replace hx := hx.mono e; replace h0 := h0.mono e; replace ha := ha.mono e; clear e
  refine Sec.bind (Sec.addW hL hx.c h0.c) fun c u4 e hc => ?_
  replace hx := hx.mono e; replace h0 := h0.mono e; replace ha := ha.mono e; replace hb := hb.mono e; clear e
  refine Sec.bind (Sec.addW hL hx.d h0.d) fun d u5 e hd => ?_
  replace hx := hx.mono e; replace h0 := h0.mono e; replace ha := ha.mono e; replace hb := hb.mono e; replace hc := hc.mono e; clear e
  refine Sec.bind (Sec.addW hL hx.e h0.e) fun e' u6 e he => ?_
  replace hx := hx.mono e; replace h0 := h0.mono e; replace ha := ha.mono e; replace hb := hb.mono e; replace hc := hc.mono e
  replace hd := hd.mono e; clear e
  refine Sec.bind (Sec.addW hL hx.f h0.f) fun f u7 e hf => ?_
  replace hx := hx.mono e; replace h0 := h0.mono e; replace ha := ha.mono e; replace hb := hb.mono e; replace hc := hc.mono e
  replace hd := hd.mono e; replace he := he.mono e; clear e
  refine Sec.bind (Sec.addW hL hx.g h0.g) fun g u8 e hg => ?_
  replace hx := hx.mono e; replace h0 := h0.mono e; replace ha := ha.mono e; replace hb := hb.mono e; replace hc := hc.mono e
  replace hd := hd.mono e; replace he := he.mono e; replace hf := hf.mono e; clear e
  refine Sec.bind (Sec.addW hL hx.h h0.h) fun h' u9 e hh => ?_
  exact Sec.pure (.cons (ha.mono e) (.cons (hb.mono e) (.cons (hc.mono e) (.cons (hd.mono e) (.cons (he.mono e) (.cons (hf.mono e)
    (.cons (hg.mono e) (.cons hh .nil))))))))

/-- Eight words that depend on an input. -/
abbrev Full (s : Sess) (x : List SInt) : Prop := Ws s (List.replicate 8 true) x

omit hL in
/-- One secret word in the first chunk is enough. -/
theorem compressF_word : compressF (List.replicate 8 false) (true :: List.replicate 15 false) = List.replicate 8 true := by decide +kernel

omit hL in
/-- A secret state stays secret. -/
theorem compressF_state : compressF (List.replicate 8 true) (List.replicate 16 false) = List.replicate 8 true := by decide +kernel

end

end Verif.Lemmas.Gate
