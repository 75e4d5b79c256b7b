import Verif.Lemmas.ShaRef
import Verif.Lemmas.Addmod

/-! The gate programs of `HMAC_SHA256`, `PRF` and `HandShake` compute the values of the word-level models. -/

namespace Verif.Lemmas.Gate
open Verif.Model Verif.Model.Gate
open Verif.Lemmas (W32)

/-- An object and its values. -/
structure HR (sec : Bool) (t : Sess) (m : HmacG) (v : SHA.Hmac) : Prop where
  sha : SR sec t m.sha v.sha
  o : IR t m.oKeyPad v.oKeyPad
  i : IR t m.iKeyPad v.iKeyPad

theorem HR.mono {sec : Bool} {t u : Sess} {m : HmacG} {v : SHA.Hmac} (h : HR sec t m v) (e : Ext t u) : HR sec u m v :=
  ⟨h.sha.mono e, h.o.mono e, h.i.mono e⟩

theorem HR.weak {sec : Bool} {t : Sess} {m : HmacG} {v : SHA.Hmac} (h : HR sec t m v) : HR false t m v :=
  ⟨⟨h.sha.gi, h.sha.go, h.sha.iv, h.sha.ps, h.sha.hh, h.sha.hk, h.sha.out, (fun h => by cases h)⟩, h.o, h.i⟩

theorem HR.new (t : Sess) (sec : Bool) : HR sec t {} SHA.Hmac.new := ⟨SR.new t sec, .nil, .nil⟩

theorem ref_padConst (t : Sess) : Ref t padConstG (fun u p => IR u p.1 (SHA.padConst 0x5c) ∧ IR u p.2 (SHA.padConst 0x36)) := by
  unfold padConstG
  have h := Ref.foldlM (f := fun (p : SInt × SInt) (_ : Nat) => do
      let o ← xorI (Gate.shl p.1 8) (pubInt 512 0x5c)
      let i ← xorI (Gate.shl p.2 8) (pubInt 512 0x36)
      pure (o, i))
    (g := fun (p : Integer × Integer) (_ : Nat) =>
      (Integer.xor (Integer.shl p.1 8) (Integer.ofNat 512 0x5c), Integer.xor (Integer.shl p.2 8) (Integer.ofNat 512 0x36)))
    (R := fun s a b => IR s a.1 b.1 ∧ IR s a.2 b.2) (by
      rintro s a b i ⟨h1, h2⟩
      refine Ref.bind (Ref.xorI (h1.shl 8) (IR.pubInt 512 0x5c)) fun _ u e k1 => ?_
      lift_ext e
      refine Ref.bind (Ref.xorI (h2.shl 8) (IR.pubInt 512 0x36)) fun _ u e k2 => ?_
      lift_ext e
      exact Ref.pure ⟨k1, k2⟩) (List.range (512 / 8 - 1)) (s := t) (a := (pubInt 512 0x5c, pubInt 512 0x36))
      (b := (Integer.ofNat 512 0x5c, Integer.ofNat 512 0x36)) ⟨IR.pubInt _ _, IR.pubInt _ _⟩
  have sp : ∀ (l : List Nat) (x y : Integer), l.foldl (fun (p : Integer × Integer) (_ : Nat) =>
      (Integer.xor (Integer.shl p.1 8) (Integer.ofNat 512 0x5c), Integer.xor (Integer.shl p.2 8) (Integer.ofNat 512 0x36))) (x, y)
      = (l.foldl (fun p _ => Integer.xor (Integer.shl p 8) (Integer.ofNat 512 0x5c)) x,
        l.foldl (fun p _ => Integer.xor (Integer.shl p 8) (Integer.ofNat 512 0x36)) y) := by
    intro l
    induction l with
    | nil => intro x y; rfl
    | cons i l ih => intro x y; simp only [List.foldl_cons, ih]
  rw [sp] at h
  refine h.mono fun u a _ hh => ?_
  unfold SHA.padConst
  simp only at hh ⊢
  exact hh

variable {L : Lib} (hL : LibSound L)
include hL

omit hL in
theorem ref_padKey_short {sec : Bool} {t : Sess} {s : ShaG} {v : SHA.Sha} (h : SR sec t s v) {x : SInt} {k : Integer} (hx : IR t x k)
    (hk : ¬ k.length > 512) :
    Ref t (padKeyG L s x) (fun u a => IR u a.1 (Verif.Model.concat k [Integer.ofNat (512 - k.length) 0]) ∧ SR sec u a.2 v) := by
  unfold padKeyG
  rw [hx.length, if_neg hk]
  exact Ref.pure ⟨IR.concat (IRL.single (IR.pubInt _ _)) hx, h⟩

theorem ref_padKey_long {sec : Bool} {t : Sess} {s : ShaG} {v : SHA.Sha} (h : SR sec t s v) {x : SInt} {k : Integer} (hx : IR t x k)
    (hk : k.length > 512) {d : List Integer} {v' : SHA.Sha} (e : v.digest k = .ok (d, v')) :
    Ref t (padKeyG L s x) (fun u a => IR u a.1 (Verif.Model.concat (Verif.Model.concat [] d) [Integer.ofNat (512 - 8 * 32) 0]) ∧ SR sec u a.2 v') := by
  unfold padKeyG
  rw [hx.length, if_pos hk]
  refine Ref.bind (ref_digest hL h hx false e) fun b u e hb => ?_
  obtain ⟨b1, b2⟩ := b
  exact Ref.pure ⟨IR.concat (IRL.single (IR.pubInt _ _)) (IR.concat hb.1.1 .nil), hb.2⟩

theorem ref_init {sec : Bool} (sec' : Bool) {t : Sess} {m : HmacG} {v : SHA.Hmac} (h : HR sec t m v) {x : SInt} {k : Integer} (hx : IR t x k)
    {v' : SHA.Hmac} (e : v.init k = .ok v') : Ref t (m.init L x) (fun u a => HR sec' u a v') := by
  have key : ∀ {p : Integer} {w : SHA.Sha} {n : Nat}, Ref t (padKeyG L m.sha.refresh x) (fun u a => IR u a.1 p ∧ SR sec' u a.2 w) →
      Ref t (m.init L x) (fun u a => HR sec' u a
        ⟨w, n, Integer.xor p (SHA.padConst 0x5c), Integer.xor p (SHA.padConst 0x36)⟩) := by
    intro p w n hp
    unfold HmacG.init
    refine Ref.bind hp fun b u e hb => ?_
    obtain ⟨b1, b2⟩ := b
    obtain ⟨h1, h2⟩ := hb
    refine Ref.bind (ref_padConst u) fun c u e hc => ?_
    obtain ⟨c1, c2⟩ := c
    obtain ⟨h3, h4⟩ := hc
    lift_ext e
    simp only at h1 h2 h3 h4 ⊢
    refine Ref.bind (Ref.xorI h1 h3) fun o u e ho => ?_
    lift_ext e
    refine Ref.bind (Ref.xorI h1 h4) fun i u e hi => ?_
    lift_ext e
    exact Ref.pure ⟨h2, ho, hi⟩
  unfold SHA.Hmac.init at e
  simp only [bind, Except.bind] at e
  by_cases hk : k.length > 512
  · rw [if_pos hk] at e
    cases e2 : v.sha.refresh.digest k with
    | error y => rw [e2] at e; cases e
    | ok q =>
      rw [e2] at e
      obtain ⟨q1, q2⟩ := q
      cases e
      exact key (ref_padKey_long hL (h.sha.refresh sec') hx hk e2)
  · rw [if_neg hk] at e
    cases e
    exact key (ref_padKey_short (h.sha.refresh sec') hx hk)

theorem ref_hmac {sec : Bool} {t : Sess} {m : HmacG} {v : SHA.Hmac} (h : HR sec t m v) {x : SInt} {k : Integer} (hx : IR t x k)
    {d : List Integer} {v' : SHA.Hmac} (e : v.hmac k = .ok (d, v')) :
    Ref t (m.hmac L x) (fun u a => WL 8 u a.1 d ∧ HR sec u a.2 v') := by
  unfold SHA.Hmac.hmac at e
  simp only [bind, Except.bind] at e
  cases e2 : v.sha.digest (Verif.Model.concat v.iKeyPad [k]) with
  | error y => rw [e2] at e; cases e
  | ok q =>
    rw [e2] at e
    obtain ⟨q1, q2⟩ := q
    simp only at e
    cases e3 : q2.digest (Verif.Model.concat v.oKeyPad q1) with
    | error y => rw [e3] at e; cases e
    | ok r =>
      rw [e3] at e
      obtain ⟨r1, r2⟩ := r
      cases e
      unfold HmacG.hmac
      refine Ref.bind (ref_digest hL h.sha (IR.concat (IRL.single hx) h.i) false e2) fun b u e hb => ?_
      obtain ⟨b1, b2⟩ := b
      lift_ext e
      simp only at hb ⊢
      refine Ref.bind (ref_digest hL hb.2 (IR.concat hb.1.1 h.o) false e3) fun b u e hb => ?_
      obtain ⟨b1, b2⟩ := b
      lift_ext e
      exact Ref.pure ⟨hb.1, hb.2, h.o, h.i⟩

omit hL in
theorem ref_feedWords : ∀ (d : List (BitVec 32)) (t : Sess), Ref t (feedWords d) (fun u x => IRL u x (d.map fun d => Integer.ofNat 32 d.toNat)) := by
  intro d
  induction d with
  | nil => intro t; exact Ref.pure .nil
  | cons d ds ih =>
    intro t
    unfold feedWords
    refine Ref.bind (Ref.feed .alice _) fun x u e hx => ?_
    refine Ref.bind (ih u) fun r u e hr => ?_
    lift_ext e
    exact Ref.pure (.cons hx hr)

theorem ref_optHmac {sec : Bool} {t : Sess} {m : HmacG} {v : SHA.Hmac} (h : HR sec t m v) (g msg : List Byte) (ri ro : Bool)
    {d : List Integer} {v' : SHA.Hmac} (e : v.optHmac g msg ri ro false = .ok (d, v')) :
    Ref t (m.optHmac L g msg ri ro) (fun u a => WL 8 u a.1 d ∧ HR false u a.2 v') := by
  unfold SHA.Hmac.optHmac at e
  simp only [bind, Except.bind] at e
  cases e2 : v.sha.optDigest g v.iKeyPad msg ri false with
  | error y => rw [e2] at e; cases e
  | ok q =>
    rw [e2] at e
    obtain ⟨q1, q2⟩ := q
    simp only at e
    cases e3 : q2.digest (Verif.Model.concat v.oKeyPad (q1.map fun d => Integer.ofNat 32 d.toNat)) ro with
    | error y => rw [e3] at e; cases e
    | ok r =>
      rw [e3] at e
      obtain ⟨r1, r2⟩ := r
      cases e
      unfold HmacG.optHmac
      refine Ref.bind (ref_optDigest hL h.sha g h.i msg ri e2) fun b u e hb => ?_
      obtain ⟨b1, b2⟩ := b
      obtain ⟨hb1, hb2⟩ := hb
      simp only at hb1 hb2 ⊢
      subst hb1
      lift_ext e
      refine Ref.bind (ref_feedWords b1 u) fun x u e hx => ?_
      lift_ext e
      refine Ref.bind (ref_digest hL hb2 (IR.concat hx h.o) ro e3) fun b u e hb => ?_
      obtain ⟨b1, b2⟩ := b
      lift_ext e
      exact Ref.pure ⟨hb.1, hb.2, h.o, h.i⟩

theorem ref_roundsHmac {t : Sess} {m : HmacG} {v : SHA.Hmac} (h : HR true t m v) {x : SInt} {k : Integer} (hx : IR t x k)
    (ri ro : Bool) {d : List Integer} {v' : SHA.Hmac} (e : v.optRoundsHmac k ri ro = .ok (d, v')) :
    Ref t (m.optRoundsHmac L x ri ro) (fun u a => WL 8 u a.1 d ∧ HR true u a.2 v') := by
  unfold SHA.Hmac.optRoundsHmac at e
  simp only [bind, Except.bind] at e
  cases e2 : v.sha.optRoundsDigest (Verif.Model.concat v.iKeyPad [k]) ri with
  | error y => rw [e2] at e; cases e
  | ok q =>
    rw [e2] at e
    obtain ⟨q1, q2⟩ := q
    simp only at e
    cases e3 : q2.digest (Verif.Model.concat v.oKeyPad q1) ro with
    | error y => rw [e3] at e; cases e
    | ok r =>
      rw [e3] at e
      obtain ⟨r1, r2⟩ := r
      cases e
      unfold HmacG.optRoundsHmac
      refine Ref.bind (ref_roundsDigest hL h.sha (IR.concat (IRL.single hx) h.i) ri e2) fun b u e hb => ?_
      obtain ⟨b1, b2⟩ := b
      lift_ext e
      simp only at hb ⊢
      refine Ref.bind (ref_digest hL hb.2 (IR.concat hb.1.1 h.o) ro e3) fun b u e hb => ?_
      obtain ⟨b1, b2⟩ := b
      lift_ext e
      exact Ref.pure ⟨hb.1, hb.2, h.o, h.i⟩

/-! ### PRF -/

omit hL in
theorem IR.trunc {t : Sess} {x : SInt} {v : Integer} (h : IR t x v) (n : Nat) : IR t (truncG x n) (SHA.prfTrunc v n) := h.drop _

theorem ref_phash {sec : Bool} (n : Nat) : ∀ {t : Sess} {m : HmacG} {v : SHA.Hmac} {p : SHA.Prf} {seed a res : SInt} {sv av rv : Integer}
    {d : Integer} {p' : SHA.Prf} {v' : SHA.Hmac}, HR sec t m v → IR t seed sv → IR t a av → IR t res rv →
    SHA.phashLoop sv n p v av rv = .ok (d, p', v') →
    Ref t (phashG L seed n m a res) (fun u b => IR u b.1 d ∧ HR sec u b.2 v') := by
  induction n with
  | zero =>
    intro t m v p seed a res sv av rv d p' v' h hs ha hr e
    unfold SHA.phashLoop at e
    cases e
    exact Ref.pure ⟨hr, h⟩
  | succ n ih =>
    intro t m v p seed a res sv av rv d p' v' h hs ha hr e
    unfold SHA.phashLoop at e
    unfold phashG
    simp only [bind, Except.bind] at e
    cases e2 : v.hmac av with
    | error y => rw [e2] at e; cases e
    | ok q =>
      rw [e2] at e
      obtain ⟨q1, q2⟩ := q
      simp only at e
      cases e3 : q2.hmac (Verif.Model.concat (Verif.Model.concat [] [Verif.Model.concat [] q1]) [sv]) with
      | error y => rw [e3] at e; cases e
      | ok r =>
        rw [e3] at e
        obtain ⟨r1, r2⟩ := r
        simp only at e
        refine Ref.bind (ref_hmac hL h ha e2) fun b u e hb => ?_
        obtain ⟨b1, b2⟩ := b
        lift_ext e
        simp only at hb ⊢
        have hA := IR.concat hb.1.1 (IR.nil (s := u))
        refine Ref.bind (ref_hmac hL hb.2 (IR.concat (IRL.single hs) (IR.concat (IRL.single hA) .nil)) e3) fun c u e hc => ?_
        obtain ⟨c1, c2⟩ := c
        lift_ext e
        simp only at hc ⊢
        exact ih hc.2 hs hA (IR.concat hc.1.1 hr) (by assumption)

theorem ref_optPhash {sec : Bool} (g : Nat → List Byte) (seed : List Byte) (ri ro : Bool) (n : Nat) : ∀ {t : Sess} {m : HmacG} {v : SHA.Hmac}
    {p : SHA.Prf} {a : List Byte} {res : SInt} {rv : Integer} {d : Integer} {p' : SHA.Prf} {v' : SHA.Hmac}, HR sec t m v → IR t res rv →
    SHA.optPhashLoop g seed ri ro false n p v a rv = .ok (d, p', v') →
    Ref t (optPhashG L g seed ri ro n m a res) (fun u b => IR u b.1 d ∧ HR false u b.2 v') := by
  induction n generalizing sec with
  | zero =>
    intro t m v p a res rv d p' v' h hr e
    unfold SHA.optPhashLoop at e
    cases e
    exact Ref.pure ⟨hr, h.weak⟩
  | succ n ih =>
    intro t m v p a res rv d p' v' h hr e
    unfold SHA.optPhashLoop at e
    unfold optPhashG
    simp only [bind, Except.bind] at e
    cases e2 : v.optHmac (g (2 * n + 1)) a ri ro false with
    | error y => rw [e2] at e; cases e
    | ok q =>
      rw [e2] at e
      obtain ⟨q1, q2⟩ := q
      simp only [Bool.not_false, if_true] at e
      cases e3 : q2.optHmac (g (2 * n)) ((SHA.revealWords q1).flatMap SHA.wordBytes ++ seed) ri ro false with
      | error y => rw [e3] at e; cases e
      | ok r =>
        rw [e3] at e
        obtain ⟨r1, r2⟩ := r
        simp only at e
        refine Ref.bind (ref_optHmac hL h _ _ ri ro e2) fun b u e hb => ?_
        obtain ⟨b1, b2⟩ := b
        obtain ⟨hb1, hb2⟩ := hb
        simp only at hb1 hb2 ⊢
        lift_ext e
        refine Ref.bind (ref_revealWords hb1.1) fun o u e ho => ?_
        subst ho
        lift_ext e
        refine Ref.bind (ref_optHmac hL hb2 _ _ ri ro e3) fun c u e hc => ?_
        obtain ⟨c1, c2⟩ := c
        lift_ext e
        simp only at hc ⊢
        exact ih hc.2 (IR.concat hc.1.1 hr) (by assumption)

theorem ref_roundsPhash (ri ro : Bool) (n : Nat) : ∀ {t : Sess} {m : HmacG} {v : SHA.Hmac} {p : SHA.Prf} {seed a res : SInt}
    {sv av rv : Integer} {d : Integer} {p' : SHA.Prf} {v' : SHA.Hmac}, HR true t m v → IR t seed sv → IR t a av → IR t res rv →
    SHA.roundsPhashLoop sv ri ro n p v av rv = .ok (d, p', v') →
    Ref t (roundsPhashG L seed ri ro n m a res) (fun u b => IR u b.1 d ∧ HR true u b.2 v') := by
  induction n with
  | zero =>
    intro t m v p seed a res sv av rv d p' v' h hs ha hr e
    unfold SHA.roundsPhashLoop at e
    cases e
    exact Ref.pure ⟨hr, h⟩
  | succ n ih =>
    intro t m v p seed a res sv av rv d p' v' h hs ha hr e
    unfold SHA.roundsPhashLoop at e
    unfold roundsPhashG
    simp only [bind, Except.bind] at e
    cases e2 : v.optRoundsHmac av ri ro with
    | error y => rw [e2] at e; cases e
    | ok q =>
      rw [e2] at e
      obtain ⟨q1, q2⟩ := q
      simp only at e
      cases e3 : q2.optRoundsHmac (Verif.Model.concat (Verif.Model.concat [] [Verif.Model.concat [] q1]) [sv]) ri ro with
      | error y => rw [e3] at e; cases e
      | ok r =>
        rw [e3] at e
        obtain ⟨r1, r2⟩ := r
        simp only at e
        refine Ref.bind (ref_roundsHmac hL h ha ri ro e2) fun b u e hb => ?_
        obtain ⟨b1, b2⟩ := b
        obtain ⟨hb1, hb2⟩ := hb
        lift_ext e
        simp only at hb1 hb2 ⊢
        have hA := IR.concat hb1.1 (IR.nil (s := u))
        refine Ref.bind (ref_roundsHmac hL hb2 (IR.concat (IRL.single hs) (IR.concat (IRL.single hA) .nil)) ri ro e3) fun c u e hc => ?_
        obtain ⟨c1, c2⟩ := c
        lift_ext e
        simp only at hc ⊢
        exact ih hc.2 hs hA (IR.concat hc.1.1 hr) (by assumption)

theorem ref_compute {sec : Bool} {t : Sess} {m : HmacG} {v : SHA.Hmac} {p : SHA.Prf} {res label seed : SInt} {rv lv sv : Integer} (n : Nat)
    (h : HR sec t m v) (hr : IR t res rv) (hl : IR t label lv) (hs : IR t seed sv) {d : Integer} {p' : SHA.Prf} {v' : SHA.Hmac}
    (e : p.compute v rv n lv sv = .ok (d, p', v')) :
    Ref t (computeG L m res n label seed) (fun u b => IR u b.1 d ∧ HR sec u b.2 v') := by
  unfold SHA.Prf.compute SHA.Prf.phash at e
  unfold computeG
  simp only [bind, Except.bind] at e
  cases e2 : SHA.phashLoop (Verif.Model.concat (Verif.Model.concat [] [lv]) [sv]) (SHA.prfBlocks n) p v
      (Verif.Model.concat (Verif.Model.concat [] [lv]) [sv]) rv with
  | error y => rw [e2] at e; cases e
  | ok q =>
    rw [e2] at e
    obtain ⟨q1, q2, q3⟩ := q
    cases e
    have hS := IR.concat (IRL.single hs) (IR.concat (IRL.single hl) (IR.nil (s := t)))
    refine Ref.bind (ref_phash hL _ h hS hS hr e2) fun b u e hb => ?_
    obtain ⟨b1, b2⟩ := b
    exact Ref.pure ⟨hb.1.trunc n, hb.2⟩

theorem ref_optCompute {sec : Bool} {t : Sess} {m : HmacG} {v : SHA.Hmac} {p : SHA.Prf} {res : SInt} {rv : Integer} (n : Nat)
    (g : Nat → List Byte) (label seed : List Byte) (ri ro : Bool)
    (h : HR sec t m v) (hr : IR t res rv) {d : Integer} {p' : SHA.Prf} {v' : SHA.Hmac}
    (e : p.optCompute v g rv n label seed ri ro false = .ok (d, p', v')) :
    Ref t (optComputeG L m g res n label seed ri ro) (fun u b => IR u b.1 d ∧ HR false u b.2 v') := by
  unfold SHA.Prf.optCompute SHA.Prf.optPhash at e
  unfold optComputeG
  simp only [bind, Except.bind] at e
  cases e2 : SHA.optPhashLoop g (label ++ seed) ri ro false (SHA.prfBlocks n) p v (label ++ seed) rv with
  | error y => rw [e2] at e; cases e
  | ok q =>
    rw [e2] at e
    obtain ⟨q1, q2, q3⟩ := q
    cases e
    refine Ref.bind (ref_optPhash hL g _ ri ro _ h hr e2) fun b u e hb => ?_
    obtain ⟨b1, b2⟩ := b
    exact Ref.pure ⟨hb.1.trunc n, hb.2⟩

theorem ref_roundsCompute {t : Sess} {m : HmacG} {v : SHA.Hmac} {p : SHA.Prf} {res : SInt} {rv : Integer} (n : Nat)
    (label seed : List Byte) (ri ro : Bool)
    (h : HR true t m v) (hr : IR t res rv) {d : Integer} {p' : SHA.Prf} {v' : SHA.Hmac}
    (e : p.optRoundsCompute v rv n label seed ri ro = .ok (d, p', v')) :
    Ref t (roundsComputeG L m res n label seed ri ro) (fun u b => IR u b.1 d ∧ HR true u b.2 v') := by
  unfold SHA.Prf.optRoundsCompute SHA.Prf.optRoundsPhash at e
  unfold roundsComputeG
  simp only [bind, Except.bind] at e
  cases e2 : SHA.roundsPhashLoop (Integer.ofBytes (label ++ seed).reverse) ri ro (SHA.prfBlocks n) p v
      (Integer.ofBytes (label ++ seed).reverse) rv with
  | error y => rw [e2] at e; cases e
  | ok q =>
    rw [e2] at e
    obtain ⟨q1, q2, q3⟩ := q
    cases e
    refine Ref.bind (Ref.feed .alice _) fun a u e ha => ?_
    lift_ext e
    refine Ref.bind (ref_roundsPhash hL ri ro _ h ha ha hr e2) fun b u e hb => ?_
    obtain ⟨b1, b2⟩ := b
    exact Ref.pure ⟨hb.1.trunc n, hb.2⟩

end Verif.Lemmas.Gate
