import Verif.Lemmas.PrfRef

/-! The gate programs of `HandShake` compute the values of the word-level model. -/

namespace Verif.Lemmas.Gate
open Verif.Model Verif.Model.Gate

variable {L : Lib} (hL : LibSound L)
include hL

theorem ref_addmod {t : Sess} {a b : SInt} {x y : Integer} {q : Nat} (ha : IR t a x) (hb : IR t b y) (lx : x.length = 8 * bnNumBytes q)
    (ly : y.length = 8 * bnNumBytes q) : Ref t (addmodG L a b q) (fun u r => IR u r (addmod x y q)) := by
  have lq : (Integer.ofBytes (bn2bin q).reverse).length = 8 * bnNumBytes q := by
    rw [length_ofBytes, List.length_reverse]; rfl
  unfold addmodG
  simp only
  refine Ref.bind (hL.add (ha.append (IR.single (BR.pub false))) (hb.append (IR.single (BR.pub false)))
    (by simp [lx, ly])) fun c u e hc => ?_
  have hc := hc.append (IR.single (BR.pub false))
  have hQ : IR u (pubBytes (bn2bin q).reverse ++ [.pub false] ++ [.pub false]) (Integer.ofBytes (bn2bin q).reverse ++ [false] ++ [false]) :=
    ((IR.pub _).append (IR.single (BR.pub false))).append (IR.single (BR.pub false))
  have hlen : (Integer.add (x ++ [false]) (y ++ [false]) ++ [false]).length = (Integer.ofBytes (bn2bin q).reverse ++ [false] ++ [false]).length := by
    simp only [List.length_append, length_add, lx, lq, List.length_singleton]
  refine Ref.bind (hL.geq hc hQ hlen) fun s u e hs => ?_
  lift_ext e
  refine Ref.bind (hL.sub hc hQ hlen) fun d u e hd => ?_
  lift_ext e
  refine Ref.bind (hL.select hc hs hd (by rw [length_sub])) fun r u e hr => ?_
  exact Ref.pure hr.dropLast.dropLast

/-- An object and its values. -/
structure HSR (t : Sess) (h : HsG) (v : Hs) : Prop where
  hm : HR v.roundsOpt t h.hmac v.hmac
  hq : h.q = v.q
  ro : h.roundsOpt = v.roundsOpt
  mk' : IR t h.masterKey v.masterKey
  cwk : IR t h.clientWriteKey v.clientWriteKey
  swk : IR t h.serverWriteKey v.serverWriteKey
  civ : IR t h.clientWriteIv v.clientWriteIv
  siv : IR t h.serverWriteIv v.serverWriteIv

omit hL in
theorem HSR.mono {t u : Sess} {h : HsG} {v : Hs} (r : HSR t h v) (e : Ext t u) : HSR u h v :=
  ⟨r.hm.mono e, r.hq, r.ro, r.mk'.mono e, r.cwk.mono e, r.swk.mono e, r.civ.mono e, r.siv.mono e⟩

omit hL in
theorem HSR.new (t : Sess) (q : Nat) (rounds : Bool) (u0 u1 : List Byte) :
    HSR t { q := q, roundsOpt := rounds } (Hs.new q rounds u0 u1) :=
  ⟨HR.new t rounds, rfl, rfl, .nil, .nil, .nil, .nil, .nil⟩

theorem ref_prfCall {t : Sess} {h : HsG} {v : Hs} (r : HSR t h v) (g : Nat → List Byte) {res : SInt} {rv : Integer} (hr : IR t res rv)
    (n : Nat) (label seed : List Byte) {d : Integer} {v' : Hs} (e : v.prfCall g rv n label seed = .ok (d, v')) :
    Ref t (h.prfCall L g res n label seed) (fun u a => IR u a.1 d ∧ HSR u a.2 v') := by
  have key : ∀ {w : SHA.Hmac} {p : SHA.Prf} {ro : Bool} {d : Integer}, v.roundsOpt = ro →
      Ref t (h.prfSel L g res n label seed) (fun u a => IR u a.1 d ∧ HR ro u a.2 w) →
      Ref t (h.prfCall L g res n label seed) (fun u a => IR u a.1 d ∧ HSR u a.2 { v with prf := p, hmac := w, roundsOpt := ro }) := by
    intro w p ro d hro hk
    subst hro
    unfold HsG.prfCall
    refine Ref.bind hk fun b u e hb => ?_
    obtain ⟨b1, b2⟩ := b
    lift_ext e
    exact Ref.pure ⟨hb.1, hb.2, r.hq, r.ro, r.mk', r.cwk, r.swk, r.civ, r.siv⟩
  unfold Hs.prfCall at e
  simp only [bind, Except.bind] at e
  have hm := r.hm
  cases hro : v.roundsOpt with
  | false =>
    simp only [hro, Bool.not_false, if_true] at e
    cases e2 : v.prf.optCompute v.hmac g rv n label seed true true false with
    | error y => rw [e2] at e; cases e
    | ok q =>
      rw [e2] at e
      obtain ⟨q1, q2, q3⟩ := q
      cases e
      refine key hro ?_
      unfold HsG.prfSel
      rw [r.ro, hro]
      exact ref_optCompute hL n g label seed true true hm hr e2
  | true =>
    simp only [hro, Bool.not_true, Bool.false_eq_true, if_false] at e
    rw [hro] at hm
    cases e2 : v.prf.optRoundsCompute v.hmac rv n label seed true true with
    | error y => rw [e2] at e; cases e
    | ok q =>
      rw [e2] at e
      obtain ⟨q1, q2, q3⟩ := q
      cases e
      refine key hro ?_
      unfold HsG.prfSel
      rw [r.ro, hro]
      exact ref_roundsCompute hL n label seed true true hm hr e2

omit hL in
theorem ref_bnBuffer_length {len n : Nat} {b : List Byte} (e : bnBuffer len n = .ok b) : b.length = len := by
  unfold bnBuffer at e
  split at e
  · rename_i h
    cases e
    simp only [List.length_reverse, List.length_append, List.length_replicate]
    show len - bnNumBytes n + bnNumBytes n = len
    omega
  · cases e

theorem ref_keyFromShares {t : Sess} {h : HsG} {v : Hs} (r : HSR t h v) (a b : Nat) {v' : Hs} (e : v.keyFromShares a b = .ok v') :
    Ref t (h.keyFromShares L a b) (fun u x => HSR u x v') := by
  unfold Hs.keyFromShares at e
  unfold HsG.keyFromShares
  rw [r.hq]
  simp only [bind, Except.bind] at e
  cases eA : bnBuffer (bnNumBytes v.q) a with
  | error y => rw [eA] at e; cases e
  | ok bA =>
    rw [eA] at e
    simp only at e
    cases eB : bnBuffer (bnNumBytes v.q) b with
    | error y => rw [eB] at e; cases e
    | ok bB =>
      rw [eB] at e
      simp only at e
      unfold SHA.Prf.init at e
      simp only [bind, Except.bind] at e
      cases e2 : v.hmac.init (addmod (Integer.ofBytes bA) (Integer.ofBytes bB) v.q) with
      | error y => rw [e2] at e; cases e
      | ok m =>
        rw [e2] at e
        cases e
        refine Ref.bind (Ref.lift (R := fun _ x => x = bA) rfl rfl) fun x u e hx => ?_
        subst hx
        lift_ext e
        refine Ref.bind (Ref.lift (R := fun _ x => x = bB) rfl rfl) fun y u e hy => ?_
        subst hy
        lift_ext e
        refine Ref.bind (Ref.feed .alice _) fun p u e hp => ?_
        lift_ext e
        refine Ref.bind (Ref.feed .bob _) fun q u e hq => ?_
        lift_ext e
        refine Ref.bind (ref_addmod hL hp hq (by rw [length_ofBytes, ref_bnBuffer_length eA]) (by rw [length_ofBytes, ref_bnBuffer_length eB]))
          fun s u e hs => ?_
        lift_ext e
        refine Ref.bind (ref_init hL v.roundsOpt r.hm hs e2) fun m' u e hm => ?_
        lift_ext e
        exact Ref.pure ⟨hm, rfl, r.ro, r.mk', r.cwk, r.swk, r.civ, r.siv⟩

theorem ref_masterKey {t : Sess} {h : HsG} {v : Hs} (r : HSR t h v) (g : Nat → List Byte) (a b : Nat) (rc rs : List Byte) {v' : Hs}
    (e : v.computeMasterKey g a b rc rs = .ok v') : Ref t (h.computeMasterKey L g a b rc rs) (fun u x => HSR u x v') := by
  unfold Hs.computeMasterKey at e
  unfold HsG.computeMasterKey
  simp only [bind, Except.bind] at e
  cases e1 : v.keyFromShares a b with
  | error y => rw [e1] at e; cases e
  | ok w =>
    rw [e1] at e
    simp only at e
    cases e2 : w.prfCall g w.masterKey (masterKeyLength * 8) masterKeyLabel (rc ++ rs) with
    | error y => rw [e2] at e; cases e
    | ok q =>
      rw [e2] at e
      obtain ⟨q1, q2⟩ := q
      cases e
      refine Ref.bind (ref_keyFromShares hL r a b e1) fun x u e hx => ?_
      refine Ref.bind (ref_prfCall hL hx g hx.mk' _ _ _ e2) fun y u e hy => ?_
      obtain ⟨y1, y2⟩ := y
      obtain ⟨h1, h2⟩ := hy
      exact Ref.pure ⟨h2.hm, h2.hq, h2.ro, h1, h2.cwk, h2.swk, h2.civ, h2.siv⟩

theorem ref_extMasterKey {t : Sess} {h : HsG} {v : Hs} (r : HSR t h v) (g : Nat → List Byte) (a b : Nat) (sh : List Byte) {v' : Hs}
    (e : v.computeExtendedMasterKey g a b sh = .ok v') : Ref t (h.computeExtendedMasterKey L g a b sh) (fun u x => HSR u x v') := by
  unfold Hs.computeExtendedMasterKey at e
  unfold HsG.computeExtendedMasterKey
  simp only [bind, Except.bind] at e
  cases e1 : v.keyFromShares a b with
  | error y => rw [e1] at e; cases e
  | ok w =>
    rw [e1] at e
    simp only at e
    cases e2 : w.prfCall g w.masterKey (extendedMasterKeyLength * 8) extendedMasterKeyLabel sh with
    | error y => rw [e2] at e; cases e
    | ok q =>
      rw [e2] at e
      obtain ⟨q1, q2⟩ := q
      cases e
      refine Ref.bind (ref_keyFromShares hL r a b e1) fun x u e hx => ?_
      refine Ref.bind (ref_prfCall hL hx g hx.mk' _ _ _ e2) fun y u e hy => ?_
      obtain ⟨y1, y2⟩ := y
      obtain ⟨h1, h2⟩ := hy
      exact Ref.pure ⟨h2.hm, h2.hq, h2.ro, h1, h2.cwk, h2.swk, h2.civ, h2.siv⟩

omit hL in
theorem Ref.extract {t : Sess} {x : SInt} {v : Integer} (h : IR t x v) {o n : Nat} {r : Integer}
    (e : Verif.Model.extractInteger v o n = .ok r) : Ref t (Gate.lift (Gate.extractInteger x o n)) (fun u y => IR u y r) := by
  obtain ⟨y, h1, h2⟩ := h.extract e
  exact Ref.lift h1 h2

theorem ref_expansionKeys {t : Sess} {h : HsG} {v : Hs} (r : HSR t h v) (g : Nat → List Byte) (rc rs : List Byte) {v' : Hs}
    (e : v.computeExpansionKeys g rc rs = .ok v') : Ref t (h.computeExpansionKeys L g rc rs) (fun u x => HSR u x v') := by
  unfold Hs.computeExpansionKeys SHA.Prf.init at e
  unfold HsG.computeExpansionKeys
  simp only [bind, Except.bind] at e
  cases e1 : v.hmac.init v.masterKey with
  | error y => rw [e1] at e; cases e
  | ok m =>
    rw [e1] at e
    simp only at e
    cases e2 : Hs.prfCall { v with prf := { v.prf with calls := 0 }, hmac := m } g [] (expansionKeyLength * 8) keyExpansionLabel (rs ++ rc) with
    | error y => rw [e2] at e; cases e
    | ok q =>
      rw [e2] at e
      obtain ⟨key, w⟩ := q
      simp only at e
      cases x1 : Verif.Model.extractInteger key 0 (keyLength * 8) with
      | error y => rw [x1] at e; cases e
      | ok k1 =>
      rw [x1] at e
      simp only at e
      cases x2 : Verif.Model.extractInteger key (keyLength * 8) (keyLength * 8) with
      | error y => rw [x2] at e; cases e
      | ok k2 =>
      rw [x2] at e
      simp only at e
      cases x3 : Verif.Model.extractInteger key (keyLength * 8 * 2) (ivLength * 8) with
      | error y => rw [x3] at e; cases e
      | ok k3 =>
      rw [x3] at e
      simp only at e
      cases x4 : Verif.Model.extractInteger key (keyLength * 8 * 2 + ivLength * 8) (ivLength * 8) with
      | error y => rw [x4] at e; cases e
      | ok k4 =>
      rw [x4] at e
      cases e
      refine Ref.bind (ref_init hL v.roundsOpt r.hm r.mk' e1) fun m' u e hm => ?_
      lift_ext e
      have r' : HSR u { h with hmac := m' } { v with prf := { v.prf with calls := 0 }, hmac := m } :=
        ⟨hm, r.hq, r.ro, r.mk', r.cwk, r.swk, r.civ, r.siv⟩
      refine Ref.bind (ref_prfCall hL r' g .nil _ _ _ e2) fun y u e hy => ?_
      obtain ⟨y1, y2⟩ := y
      obtain ⟨h1, h2⟩ := hy
      simp only at h1 h2 ⊢
      refine Ref.bind (Ref.extract h1 x1) fun _ u e g1 => ?_
      lift_ext e
      refine Ref.bind (Ref.extract h1 x2) fun _ u e g2 => ?_
      lift_ext e
      refine Ref.bind (Ref.extract h1 x3) fun _ u e g3 => ?_
      lift_ext e
      refine Ref.bind (Ref.extract h1 x4) fun _ u e g4 => ?_
      lift_ext e
      exact Ref.pure ⟨h2.hm, h2.hq, h2.ro, h2.mk', g1, g2, g3, g4⟩

theorem ref_clientFinished {t : Sess} {h : HsG} {v : Hs} (r : HSR t h v) (g : Nat → List Byte) (label tau : List Byte) {v' : Hs}
    (e : v.computeClientFinished g label tau = .ok v') :
    Ref t (h.computeClientFinished L g label tau) (fun u x => x.1 = v'.clientUfin ∧ HSR u x.2 v') := by
  unfold Hs.computeClientFinished at e
  unfold HsG.computeClientFinished
  simp only [bind, Except.bind] at e
  cases e2 : v.prfCall g [] (finishedMsgLength * 8) label tau with
  | error y => rw [e2] at e; cases e
  | ok q =>
    rw [e2] at e
    obtain ⟨q1, q2⟩ := q
    cases e
    refine Ref.bind (ref_prfCall hL r g .nil _ _ _ e2) fun y u e hy => ?_
    obtain ⟨y1, y2⟩ := y
    obtain ⟨h1, h2⟩ := hy
    refine Ref.bind (Ref.reveal _ h1) fun o u e ho => ?_
    subst ho
    lift_ext e
    exact Ref.pure ⟨rfl, h2.hm, h2.hq, h2.ro, h2.mk', h2.cwk, h2.swk, h2.civ, h2.siv⟩

theorem ref_serverFinished {t : Sess} {h : HsG} {v : Hs} (r : HSR t h v) (g : Nat → List Byte) (label tau : List Byte) {v' : Hs}
    (e : v.computeServerFinished g label tau = .ok v') :
    Ref t (h.computeServerFinished L g label tau) (fun u x => x.1 = v'.serverUfin ∧ HSR u x.2 v') := by
  unfold Hs.computeServerFinished at e
  unfold HsG.computeServerFinished
  simp only [bind, Except.bind] at e
  cases e2 : v.prfCall g [] (finishedMsgLength * 8) label tau with
  | error y => rw [e2] at e; cases e
  | ok q =>
    rw [e2] at e
    obtain ⟨q1, q2⟩ := q
    cases e
    refine Ref.bind (ref_prfCall hL r g .nil _ _ _ e2) fun y u e hy => ?_
    obtain ⟨y1, y2⟩ := y
    obtain ⟨h1, h2⟩ := hy
    refine Ref.bind (Ref.reveal _ h1) fun o u e ho => ?_
    subst ho
    lift_ext e
    exact Ref.pure ⟨rfl, h2.hm, h2.hq, h2.ro, h2.mk', h2.cwk, h2.swk, h2.civ, h2.siv⟩

end Verif.Lemmas.Gate
