import Verif.Model.NoAssertConv
import Verif.Props.NoAssert
import Verif.Props.ComConv
import Verif.Props.ProxyTls

set_option linter.unusedSectionVars false

/-!
C88: `compute_com_send` and `compute_com_recv` with vectors of any length, with and without assertions.
C86, continued: the assertions of `OLE::compute` and of the constructor of `AESProver`.
-/

namespace Verif.Props.NoAssertConv
open Verif.Model Verif.Model.Integer Verif.Lemmas Verif.Props
open Verif.Model.ComConv (Env Rand Out chunks bsInt)
open Verif.Model.NoAssert (Build Vectors comRun store)

theorem mapM_length {α β : Type} (f : α → Res β) : ∀ (l : List α) (r : List β), l.mapM f = .ok r → r.length = l.length
  | [], r, h => by
    simp only [List.mapM_nil, pure, Except.pure, Except.ok.injEq] at h
    rw [← h]; rfl
  | x :: l, r, h => by
    simp only [List.mapM_cons, bind, Except.bind, pure, Except.pure] at h
    cases hx : f x with
    | error e => rw [hx] at h; exact absurd h (by simp)
    | ok y =>
      rw [hx] at h
      cases hl : l.mapM f with
      | error e => rw [hl] at h; exact absurd h (by simp)
      | ok ys =>
        rw [hl] at h
        simp only [Except.ok.injEq] at h
        rw [← h, List.length_cons, List.length_cons, mapM_length f l ys hl]

theorem store_exact {α : Type} (v l : List α) (w : String) (h : v.length = l.length) : store v l w = .ok l := by
  unfold store
  rw [if_neg (by omega), List.drop_eq_nil_of_le (by omega), List.append_nil]

theorem store_long {α : Type} (v l : List α) (w : String) (h : l.length ≤ v.length) : store v l w = .ok (l ++ v.drop l.length) := by
  unfold store
  rw [if_neg (by omega)]

variable {G : Type} [AddCommGroup G] [DecidableEq G]

/-- What `Env.run` has computed when it ends. -/
theorem run_ok {E : Env G} {ks : Bool} {bDelta : Block} {keys macs : List Block} {bs : Nat} {R : Rand} {out : Out G}
    (h : E.run ks bDelta keys macs bs R = .ok out) :
    ∃ (rk rm : Int) (bK bM msg : List Int),
      ComConv.batchCheck E.q bs = .ok () ∧ E.mask ks R = .ok (rk, rm)
      ∧ (chunks bs (E.convert bDelta R.aDelta keys).1).mapM E.chunkSum = .ok bK
      ∧ (chunks bs (E.convertRecv macs (E.convert bDelta R.aDelta keys).2)).mapM E.chunkSum = .ok bM
      ∧ (chunks bs (macs.map fun m => m.getLsbD 0)).mapM E.chunkMsg = .ok msg
      ∧ msg.length = (macs.length + bs - 1) / bs := by
  simp only [Env.run, bind, Except.bind] at h
  cases h1 : ComConv.batchCheck E.q bs with
  | error e => rw [h1] at h; exact absurd h (by simp)
  | ok u =>
    rw [h1] at h
    cases h2 : E.mask ks R with
    | error e => rw [h2] at h; exact absurd h (by simp)
    | ok p =>
      rw [h2] at h
      cases h3 : (chunks bs (E.convert bDelta R.aDelta keys).1).mapM E.chunkSum with
      | error e => simp only [h3] at h; exact absurd h (by simp)
      | ok bK =>
        simp only [h3] at h
        cases h4 : (chunks bs (E.convertRecv macs (E.convert bDelta R.aDelta keys).2)).mapM E.chunkSum with
        | error e => simp only [h4] at h; exact absurd h (by simp)
        | ok bM =>
          simp only [h4] at h
          cases h5 : (chunks bs (macs.map fun m => m.getLsbD 0)).mapM E.chunkMsg with
          | error e => simp only [h5] at h; exact absurd h (by simp)
          | ok msg =>
            refine ⟨p.1, p.2, bK, bM, msg, rfl, rfl, rfl, rfl, rfl, ?_⟩
            rw [mapM_length _ _ _ h5]
            simp [chunks]

theorem comb_exact (b : Build) (coms : List G) (coef : List Int) (h : coms.length = coef.length) :
    Model.NoAssert.linearCombCom b coms coef = .ok (ComConv.linearCombCom coms coef) := by
  cases b <;> simp [Model.NoAssert.linearCombCom, Model.NoAssert.check, h, bind, Except.bind]

theorem rand_exact (b : Build) (E : Env G) (vals coef : List Int) (h : vals.length = coef.length) :
    Model.NoAssert.linearCombRand b E vals coef = .ok (E.linearCombRand vals coef) := by
  cases b <;> simp [Model.NoAssert.linearCombRand, Model.NoAssert.check, h, bind, Except.bind]

/-- C88: with vectors of `chunk_len` elements the two builds are the code of C35, for all inputs and whether or not the run is honest. -/
theorem C88_exact (b : Build) (E : Env G) (ks : Bool) (bDelta : Block) (keys macs : List Block) (bs : Nat) (R : Rand) (V : Vectors G) (out : Out G)
    (hR : R.rnds.length = (macs.length + bs - 1) / bs) (hS : V.comS.length = (macs.length + bs - 1) / bs)
    (hV : V.comR.length = (macs.length + bs - 1) / bs) (hr : V.rnds.length = (macs.length + bs - 1) / bs) :
    E.run ks bDelta keys macs bs R = .ok out → comRun b E ks bDelta keys macs bs R V = .ok out := by
  intro h
  obtain ⟨rk, rm, bK, bM, msg, h1, h2, h3, h4, h5, hl⟩ := run_ok h
  rw [← h]
  have lc : (List.zipWith (fun m rnd => E.mul m rnd) msg R.rnds).length = (macs.length + bs - 1) / bs := by rw [List.length_zipWith]; omega
  simp only [comRun, Env.run, h1, h2, h3, h4, h5, bind, Except.bind]
  simp only [store_exact _ _ _ (hV.trans lc.symm), store_exact _ _ _ (hr.trans hR.symm)]
  rw [store_exact _ _ _ (by rw [List.length_map]; omega)]
  simp only []
  rw [comb_exact _ _ _ (by simp only [List.length_append, List.length_map, List.length_range, List.length_singleton, lc, hl])]
  simp only []
  rw [rand_exact _ _ _ _ (by simp only [List.length_append, List.length_map, List.length_range, List.length_singleton, hR, hl])]
  simp only []
  rw [rand_exact _ _ _ _ (by simp only [List.length_append, List.length_map, List.length_range, List.length_singleton, hl])]

/-! ### Longer and shorter vectors -/

/-- The point that meets the coefficient of the commitment of `r`, and the randomness that meets it. -/
def point (E : Env G) (R : Rand) (V : Vectors G) (k : Nat) : G := (V.comS[k]?).getD (E.mul R.r R.rndR)
def scalar (R : Rand) (V : Vectors G) (k : Nat) : Int := (V.rnds[k]?).getD R.rndR

theorem zip_take {α β : Type} : ∀ (l : List α) (m : List β), l.zip m = (l.take m.length).zip m
  | [], m => by simp
  | x :: l, [] => by simp
  | x :: l, y :: m => by simp [zip_take l m]

theorem take_succ {α : Type} (l v : List α) (x : α) : ((l ++ v.drop l.length) ++ [x]).take (l.length + 1) = l ++ [(v[l.length]?).getD x] := by
  rw [List.append_assoc, List.take_append, List.take_of_length_le (by omega)]
  congr 1
  rw [show l.length + 1 - l.length = 1 by omega]
  cases h : v[l.length]? with
  | none =>
    rw [List.drop_eq_nil_of_le (by rw [List.getElem?_eq_none_iff] at h; exact h)]
    rfl
  | some y =>
    obtain ⟨hl, e⟩ := List.getElem?_eq_some_iff.mp h
    rw [List.drop_eq_getElem_cons hl, e]
    rfl

theorem com_long (b : Build) (coms : List G) (coef : List Int) (h : coef.length ≤ coms.length) (hb : b = .ndebug) :
    Model.NoAssert.linearCombCom b coms coef = .ok (ComConv.linearCombCom (coms.take coef.length) coef) := by
  subst hb
  simp only [Model.NoAssert.linearCombCom, Model.NoAssert.check, bind, Except.bind]
  rw [if_neg (by omega), ComConv.linearCombCom, ComConv.linearCombCom, zip_take]

theorem rand_long (b : Build) (E : Env G) (vals coef : List Int) (h : coef.length ≤ vals.length) (hb : b = .ndebug) :
    Model.NoAssert.linearCombRand b E vals coef = .ok (E.linearCombRand (vals.take coef.length) coef) := by
  subst hb
  simp only [Model.NoAssert.linearCombRand, Model.NoAssert.check, bind, Except.bind]
  rw [if_neg (by omega), Env.linearCombRand, Env.linearCombRand, zip_take]

theorem com_snoc (l : List G) (c : List Int) (h : l.length = c.length) (P : G) :
    ComConv.linearCombCom (l ++ [P]) (c ++ [1]) = ComConv.linearCombCom l c + P := by
  rw [ComConv.linearCombCom, List.zip_append h, List.foldl_append]
  simp [ComConv.linearCombCom]

theorem rand_snoc (E : Env G) (l c : List Int) (h : l.length = c.length) (t : Int) :
    ((E.linearCombRand (l ++ [t]) (c ++ [1]) : Int) : ZMod E.q) = ((E.linearCombRand l c + t : Int) : ZMod E.q) := by
  unfold Env.linearCombRand
  rw [List.zip_append h, List.foldl_append]
  simp only [List.zip_cons_cons, List.zip_nil_right, List.foldl_cons, List.foldl_nil, mul_one]
  rw [ComConv.cast_mod]
  push_cast
  rfl

theorem shift_iff (A m d rg s t P : G) (ha : A + (rg + s) = m + (d + s)) : A + P = m + (d + t) ↔ P = rg + t := by
  have e : A + rg = m + d := by
    rw [← add_assoc, ← add_assoc] at ha
    exact add_right_cancel ha
  rw [← add_assoc, ← e, add_assoc, add_right_inj]

/-- C88: a build without assertions, vectors with more than `chunk_len` elements.  Wherever the code of C35 ends, this build ends too, with the same commitments in front of the
rest of the caller's vectors; but the coefficient of the commitment of `r` meets the next element of the caller's vectors, and what an accepting sender accepts depends on it. -/
theorem C88_long (E : Env G) (hord : ∀ P : G, E.q • P = 0) (hc : ∀ P : G, (E.dec (E.enc P)).getD 0 = P) (ks : Bool) (bDelta : Block)
    (keys macs : List Block) (bs : Nat) (R : Rand) (V : Vectors G) (out : Out G) (k : Nat) (hk : k = (macs.length + bs - 1) / bs)
    (hR : R.rnds.length = k) (hS : k ≤ V.comS.length) (hV : k ≤ V.comR.length) (hr : k ≤ V.rnds.length)
    (h : E.run ks bDelta keys macs bs R = .ok out) :
    ∃ out', comRun .ndebug E ks bDelta keys macs bs R V = .ok out'
      ∧ out'.comS = out.comS ++ V.comS.drop k ∧ out'.comR = out.comR ++ V.comR.drop k ∧ out'.recvOk = out.recvOk
      ∧ (out.sendOk = true → (out'.sendOk = true ↔ point E R V k = E.mul R.r (scalar R V k))) := by
  subst hk
  obtain ⟨rk, rm, bK, bM, msg, h1, h2, h3, h4, h5, hl⟩ := run_ok h
  have lc : (List.zipWith (fun m rnd => E.mul m rnd) msg R.rnds).length = (macs.length + bs - 1) / bs := by rw [List.length_zipWith]; omega
  simp only [Env.run, h1, h2, h3, h4, h5, bind, Except.bind, hc, List.map_id', Except.ok.injEq] at h
  simp only [comRun, h1, h2, h3, h4, h5, bind, Except.bind, hc, List.map_id']
  generalize hcoms : List.zipWith (fun m rnd => E.mul m rnd) msg R.rnds = coms at *
  generalize hchi : List.map (E.chi _) (List.range msg.length) = chi at *
  have lchi : chi.length = (macs.length + bs - 1) / bs := by rw [← hchi, List.length_map, List.length_range, hl]
  rw [store_long _ _ _ (by omega), store_long _ _ _ (by omega)]
  simp only []
  rw [store_long _ _ _ (by omega)]
  simp only []
  rw [com_long _ _ _ (by simp only [List.length_append, List.length_drop, List.length_singleton]; omega) rfl]
  simp only []
  rw [rand_long _ _ _ _ (by simp only [List.length_append, List.length_drop, List.length_singleton]; omega) rfl]
  simp only []
  rw [rand_long _ _ _ _ (by simp only [List.length_append, List.length_singleton]; omega) rfl]
  simp only []
  refine ⟨_, rfl, ?_, ?_, ?_, ?_⟩
  · subst h; simp only [lc]
  · subst h; simp only [lc]
  · subst h; rfl
  · subst h
    have t1 := take_succ coms V.comS (E.mul R.r R.rndR)
    have t2 := take_succ R.rnds V.rnds R.rndR
    rw [lc] at t1
    rw [hR] at t2
    simp only [List.length_append, List.length_singleton, lchi, lc, hR]
    rw [t1, t2, List.take_of_length_le (by simp [hl])]
    simp only [BEq.rfl, Bool.and_true, Bool.and_eq_true, beq_iff_eq, Env.openCheck]
    intro ⟨ha, hb⟩
    rw [and_iff_left hb]
    rw [com_snoc _ _ (lc.trans lchi.symm)] at ha ⊢
    have e1 := ComConv.zsmul_congr (hord E.h) (rand_snoc E R.rnds chi (hR.trans lchi.symm) R.rndR)
    have e2 := ComConv.zsmul_congr (hord E.h) (rand_snoc E R.rnds chi (hR.trans lchi.symm) ((V.rnds[(macs.length + bs - 1) / bs]?).getD R.rndR))
    simp only [Env.mul, point, scalar] at ha ⊢
    rw [e1, add_zsmul] at ha
    rw [e2, add_zsmul]
    exact shift_iff _ _ _ _ _ _ _ ha

/-- C88: a build with assertions stops if the sender's vector or the receiver's vector of random numbers is longer than `chunk_len`. -/
theorem C88_long_checked (E : Env G) (ks : Bool) (bDelta : Block) (keys macs : List Block) (bs : Nat) (R : Rand) (V : Vectors G) (out : Out G) (k : Nat)
    (hk : k = (macs.length + bs - 1) / bs) (hR : R.rnds.length = k) (hS : k ≤ V.comS.length) (hV : k ≤ V.comR.length) (hr : k ≤ V.rnds.length)
    (h : E.run ks bDelta keys macs bs R = .ok out) :
    (k < V.comS.length → comRun .checked E ks bDelta keys macs bs R V = .error (.error "assert(coms.size() == coef.size())"))
    ∧ (k = V.comS.length → k < V.rnds.length → comRun .checked E ks bDelta keys macs bs R V = .error (.error "assert(rnds.size() == coef.size())"))
    ∧ (k = V.comS.length → k = V.rnds.length → comRun .checked E ks bDelta keys macs bs R V = .ok ⟨out.sendOk, out.recvOk, out.comS, out.comR ++ V.comR.drop k⟩) := by
  subst hk
  obtain ⟨rk, rm, bK, bM, msg, h1, h2, h3, h4, h5, hl⟩ := run_ok h
  have lc : (List.zipWith (fun m rnd => E.mul m rnd) msg R.rnds).length = (macs.length + bs - 1) / bs := by rw [List.length_zipWith]; omega
  simp only [Env.run, h1, h2, h3, h4, h5, bind, Except.bind, Except.ok.injEq] at h
  simp only [comRun, h1, h2, h3, h4, h5, bind, Except.bind]
  generalize hcoms : List.zipWith (fun m rnd => E.mul m rnd) msg R.rnds = coms at *
  generalize hchi : List.map (E.chi _) (List.range msg.length) = chi at *
  have lchi : chi.length = (macs.length + bs - 1) / bs := by rw [← hchi, List.length_map, List.length_range, hl]
  rw [store_long _ _ _ (by omega), store_long _ _ _ (by omega)]
  simp only []
  rw [store_long _ _ _ (by rw [List.length_map]; omega)]
  simp only [List.length_map]
  have hx : ∀ (P : G), (coms.map (fun c => (E.dec (E.enc c)).getD 0) ++ V.comS.drop coms.length ++ [P]).length = V.comS.length + 1 := by
    intro P; simp only [List.length_append, List.length_map, List.length_drop, List.length_singleton]; omega
  have hy : (R.rnds ++ V.rnds.drop R.rnds.length ++ [R.rndR]).length = V.rnds.length + 1 := by
    simp only [List.length_append, List.length_drop, List.length_singleton]; omega
  have hz : (chi ++ [1]).length = (macs.length + bs - 1) / bs + 1 := by simp only [List.length_append, List.length_singleton, lchi]
  refine ⟨?_, ?_, ?_⟩
  · intro hlt
    simp only [Model.NoAssert.linearCombCom, Model.NoAssert.check, hx, hz]
    rw [if_neg (by omega)]
    rfl
  · intro he hlt
    rw [comb_exact _ _ _ (by rw [hx, hz]; omega)]
    simp only [Model.NoAssert.linearCombRand, Model.NoAssert.check, hy, hz]
    rw [if_neg (by omega)]
    rfl
  · intro he he'
    rw [comb_exact _ _ _ (by rw [hx, hz]; omega)]
    simp only []
    rw [rand_exact _ _ _ _ (by rw [hy, hz]; omega)]
    simp only []
    rw [rand_exact _ _ _ _ (by rw [hz, List.length_append, List.length_singleton]; omega)]
    subst h
    rw [List.drop_eq_nil_of_le (by omega), List.drop_eq_nil_of_le (by omega), List.append_nil, List.append_nil, lc]

/-- C88: with a vector of less than `chunk_len` elements both builds write past its end. -/
theorem C88_short (b : Build) (E : Env G) (ks : Bool) (bDelta : Block) (keys macs : List Block) (bs : Nat) (R : Rand) (V : Vectors G) (out : Out G) (k : Nat)
    (hk : k = (macs.length + bs - 1) / bs) (hR : R.rnds.length = k) (hV : V.comS.length < k ∨ V.comR.length < k ∨ V.rnds.length < k)
    (h : E.run ks bDelta keys macs bs R = .ok out) : ∃ w, comRun b E ks bDelta keys macs bs R V = .error (.ub w) := by
  subst hk
  obtain ⟨rk, rm, bK, bM, msg, h1, h2, h3, h4, h5, hl⟩ := run_ok h
  have lc : (List.zipWith (fun m rnd => E.mul m rnd) msg R.rnds).length = (macs.length + bs - 1) / bs := by rw [List.length_zipWith]; omega
  simp only [comRun, h1, h2, h3, h4, h5, bind, Except.bind]
  by_cases c1 : V.comR.length < (macs.length + bs - 1) / bs
  · rw [store, if_pos (by omega)]
    exact ⟨_, rfl⟩
  · rw [store_long _ _ _ (by omega)]
    simp only []
    by_cases c2 : V.rnds.length < (macs.length + bs - 1) / bs
    · rw [store, if_pos (by omega)]
      exact ⟨_, rfl⟩
    · rw [store_long _ _ _ (by omega)]
      simp only []
      rw [store, if_pos (by rw [List.length_map]; omega)]
      exact ⟨_, rfl⟩

/-- C88: an honest run of a build without assertions whose vectors are all longer than `chunk_len` and hold fresh elements (points at infinity and zeros).  The receiver accepts the
opening of the sender, both hold the commitments of C35, and the sender refuses the honest receiver unless the masking value `r` is a multiple of the order of `g`. -/
theorem C88_honest (E : Env G) (hord : ∀ P : G, E.q • P = 0) (hc : ∀ P : G, (E.dec (E.enc P)).getD 0 = P)
    (ks : Bool) (bDelta : Block) (hd : bDelta.getLsbD 0 = true) (ps : List (Block × Bool))
    (hk : ∀ p ∈ ps, p.1.getLsbD 0 = false) (bs : Nat) (hb : 0 < bs) (h31 : bs < 2 ^ 31) (hbs : 2 ^ bs - 1 < E.q)
    (R : Rand) (ha : R.aDelta < E.q) (hr : R.r < E.q) (hl : R.rnds.length = (ps.length + bs - 1) / bs)
    (nS nR nr : Nat) (hS : (ps.length + bs - 1) / bs < nS) (hR : (ps.length + bs - 1) / bs ≤ nR) (hn : (ps.length + bs - 1) / bs < nr) :
    ∃ out, comRun .ndebug E ks bDelta (ps.map (·.1)) (ps.map fun p => p.1 ^^^ (if p.2 then bDelta else 0)) bs R
        ⟨List.replicate nS 0, List.replicate nR 0, List.replicate nr 0⟩ = .ok out
      ∧ out.recvOk = true ∧ (out.sendOk = true ↔ R.r • E.g = 0)
      ∧ ∀ i rnd, R.rnds[i]? = some rnd → ∃ c, out.comS[i]? = some c ∧ out.comR[i]? = some c
          ∧ E.openCheck c rnd (ComConv.bitsNat (((ps.map (·.2)).drop (i * bs)).take bs)) = true := by
  obtain ⟨out, h1, h2, h3, h4, h5, h6⟩ := ComConv.C35_honest_partial E hord hc ks bDelta hd ps hk bs hb h31 hbs R ha hr hl
  obtain ⟨out', e1, e2, e3, e4, e5⟩ := C88_long E hord hc ks bDelta _ _ bs R ⟨List.replicate nS 0, List.replicate nR 0, List.replicate nr 0⟩ out
    ((ps.length + bs - 1) / bs) (by rw [List.length_map]) hl (by simp; omega) (by simpa using hR) (by simp; omega) h1
  refine ⟨out', e1, e4.trans h3, (e5 h2).trans ?_, ?_⟩
  · simp only [point, scalar, Env.mul]
    rw [List.getElem?_replicate, if_pos hS, List.getElem?_replicate, if_pos hn]
    simp only [Option.getD_some, zero_zsmul, add_zero, natCast_zsmul]
    exact eq_comm
  · intro i rnd hi
    obtain ⟨c, g1, g2⟩ := h6 i rnd hi
    have hlt : i < out.comR.length := (List.getElem?_eq_some_iff.mp g1).1
    refine ⟨c, ?_, ?_, g2⟩
    · rw [e2, h4, List.getElem?_append_left hlt, g1]
    · rw [e3, List.getElem?_append_left hlt, g1]

/-- C88: the same with only one of the two vectors longer. -/
theorem C88_honest_one (E : Env G) (hord : ∀ P : G, E.q • P = 0) (hc : ∀ P : G, (E.dec (E.enc P)).getD 0 = P)
    (ks : Bool) (bDelta : Block) (hd : bDelta.getLsbD 0 = true) (ps : List (Block × Bool))
    (hk : ∀ p ∈ ps, p.1.getLsbD 0 = false) (bs : Nat) (hb : 0 < bs) (h31 : bs < 2 ^ 31) (hbs : 2 ^ bs - 1 < E.q)
    (R : Rand) (ha : R.aDelta < E.q) (hr : R.r < E.q) (k : Nat) (hkk : k = (ps.length + bs - 1) / bs) (hl : R.rnds.length = k)
    (n nR : Nat) (hn : k < n) (hR : k ≤ nR) :
    (∃ out, comRun .ndebug E ks bDelta (ps.map (·.1)) (ps.map fun p => p.1 ^^^ (if p.2 then bDelta else 0)) bs R
        ⟨List.replicate n 0, List.replicate nR 0, List.replicate k 0⟩ = .ok out ∧ (out.sendOk = true ↔ E.mul R.r R.rndR = 0))
    ∧ (∃ out, comRun .ndebug E ks bDelta (ps.map (·.1)) (ps.map fun p => p.1 ^^^ (if p.2 then bDelta else 0)) bs R
        ⟨List.replicate k 0, List.replicate nR 0, List.replicate n 0⟩ = .ok out ∧ (out.sendOk = true ↔ R.rndR • E.h = 0)) := by
  subst hkk
  obtain ⟨out, h1, h2, -⟩ := ComConv.C35_honest_partial E hord hc ks bDelta hd ps hk bs hb h31 hbs R ha hr hl
  constructor
  · obtain ⟨out', e1, -, -, -, e5⟩ := C88_long E hord hc ks bDelta _ _ bs R ⟨List.replicate n 0, List.replicate nR 0, List.replicate ((ps.length + bs - 1) / bs) 0⟩ out
      ((ps.length + bs - 1) / bs) (by rw [List.length_map]) hl (by simp; omega) (by simpa using hR) (by simp) h1
    refine ⟨out', e1, (e5 h2).trans ?_⟩
    simp only [point, scalar]
    rw [List.getElem?_replicate, if_pos hn, List.getElem?_replicate, if_neg (by omega)]
    exact eq_comm
  · obtain ⟨out', e1, -, -, -, e5⟩ := C88_long E hord hc ks bDelta _ _ bs R ⟨List.replicate ((ps.length + bs - 1) / bs) 0, List.replicate nR 0, List.replicate n 0⟩ out
      ((ps.length + bs - 1) / bs) (by rw [List.length_map]) hl (by simp) (by simpa using hR) (by simp; omega) h1
    refine ⟨out', e1, (e5 h2).trans ?_⟩
    simp only [point, scalar, Env.mul]
    rw [List.getElem?_replicate, if_neg (by omega), List.getElem?_replicate, if_pos hn]
    simp

/-! ### OLE -/

/-- C86: `OLE::compute`.  Where the sizes agree both builds are the code of C21; without assertions the first elements count: with output vectors of the same size `k`, not
longer than the input vectors, the outputs add to the products of the first `k` inputs; an output vector longer than the input reads past the end of the input. -/
theorem C86_ole (ccrh : Block → Block) (q : Int) (n : Nat) (delta : Block) (K : Nat → Block) (ins : List Int) (inr : List Nat)
    (hb : ∀ y ∈ inr, y < 2 ^ n) (k : Nat) :
    (∀ b, Model.NoAssert.oleCompute b ccrh q n delta K ins.length inr.length ins (inr.map Int.ofNat) = OLE.compute ccrh q n delta K ins (inr.map Int.ofNat))
    ∧ (k ≤ ins.length → k ≤ inr.length → ∃ os or', Model.NoAssert.oleCompute .ndebug ccrh q n delta K k k ins (inr.map Int.ofNat) = .ok (os, or', [])
        ∧ os.length = k ∧ or'.length = k
        ∧ ∀ (i : Nat) (x a b : Int) (y : Nat), ins[i]? = some x → inr[i]? = some y → os[i]? = some a → or'[i]? = some b → (a + b) % q = (x * y) % q)
    ∧ (ins.length < k ∨ inr.length < k → Model.NoAssert.oleCompute .ndebug ccrh q n delta K k k ins (inr.map Int.ofNat) = .error (.ub "in[i] out of range"))
    ∧ (k ≠ ins.length ∨ k ≠ inr.length →
        Model.NoAssert.oleCompute .checked ccrh q n delta K k k ins (inr.map Int.ofNat) = .error (.error "assert(out.size() == in.size())")) := by
  refine ⟨?_, ?_, ?_, ?_⟩
  · intro b
    have e : List.take inr.length (inr.map Int.ofNat) = inr.map Int.ofNat := List.take_of_length_le (by simp)
    cases b <;> simp [Model.NoAssert.oleCompute, Model.NoAssert.check, bind, Except.bind, e]
  · intro h1 h2
    obtain ⟨os, or', e, l1, l2, r⟩ := Verif.Props.C21_ole ccrh q n delta K (ins.take k) (inr.take k) (by simp; omega)
      (fun y hy => hb y (List.mem_of_mem_take hy))
    rw [List.length_take, Nat.min_eq_left h1] at l1 l2
    refine ⟨os, or', ?_, l1, l2, ?_⟩
    · simp only [Model.NoAssert.oleCompute, Model.NoAssert.check, bind, Except.bind]
      rw [if_neg (by rw [List.length_map]; omega), ← List.map_take, e]
    · intro i x a b y g1 g2 g3 g4
      have hi : i < k := by rw [← l1]; exact (List.getElem?_eq_some_iff.mp g3).1
      exact r i x a b y (by rw [List.getElem?_take_of_lt hi, g1]) (by rw [List.getElem?_take_of_lt hi, g2]) g3 g4
  · intro h
    simp only [Model.NoAssert.oleCompute, Model.NoAssert.check, bind, Except.bind]
    rw [if_pos (by rw [List.length_map]; omega)]
  · intro h
    simp only [Model.NoAssert.oleCompute, Model.NoAssert.check, bind, Except.bind, List.length_map]
    by_cases c : k = ins.length
    · rw [if_pos c]
      simp only []
      rw [if_neg (by omega)]
    · rw [if_neg c]

/-! ### The prover of the proxy protocol -/

theorem compute_take (c : AESCircuit.Circuit) (j : AESCircuit.Wires) (x y : List Bool) (hx : c.n1 ≤ x.length) (hy : c.n2 ≤ y.length) :
    c.compute j x y = c.compute j (x.take c.n1) (y.take c.n2) := by
  have e : c.start j x y = c.start j (x.take c.n1) (y.take c.n2) := by
    funext w
    simp only [AESCircuit.Circuit.start]
    split
    · rename_i h
      rw [List.getD_eq_getElem?_getD, List.getD_eq_getElem?_getD, List.getElem?_take_of_lt h]
    · split
      · rename_i h h'
        rw [List.getD_eq_getElem?_getD, List.getD_eq_getElem?_getD, List.getElem?_take_of_lt (by omega)]
      · rfl
  simp only [AESCircuit.Circuit.compute, e, List.length_take]
  rw [if_neg (by omega), if_neg (by omega)]

theorem gctr_take (j : AESCircuit.Wires) (ek : Integer) : ∀ (m : Nat) (nonce hi : Integer), nonce.length = 128 →
    Model.NoAssert.gctrCircuit j ek m (nonce ++ hi) = Model.NoAssert.gctrCircuit j ek m nonce
  | 0, _, _, _ => rfl
  | m + 1, nonce, hi, h => by
    have e1 : AESCircuit.computeAESKS j ek (nonce ++ hi) = AESCircuit.computeAESKS j ek nonce := by
      by_cases hk : 1408 ≤ ek.length
      · have a := compute_take AESCircuit.aesEncKs j ek (nonce ++ hi) hk (by show 128 ≤ _; rw [List.length_append]; omega)
        have b := compute_take AESCircuit.aesEncKs j ek nonce hk (by show 128 ≤ _; omega)
        have c : (nonce ++ hi).take AESCircuit.aesEncKs.n2 = nonce.take AESCircuit.aesEncKs.n2 := by
          show (nonce ++ hi).take 128 = nonce.take 128
          rw [List.take_append_of_le_length (by omega)]
        rw [AESCircuit.computeAESKS, AESCircuit.computeAESKS, a, b, c]
      · have hk' : ek.length < AESCircuit.aesEncKs.n1 := by show ek.length < 1408; omega
        simp only [AESCircuit.computeAESKS, AESCircuit.Circuit.compute]
        rw [if_pos (Or.inl hk'), if_pos (Or.inl hk')]
    have e2 : AEAD.inc (nonce ++ hi) 32 = (AEAD.inc nonce 32).map fun x => x ++ hi := by
      simp only [AEAD.inc, List.length_append]
      rw [if_neg (by omega), if_neg (by omega), List.drop_append_of_le_length (by omega), List.take_append_of_le_length (by omega)]
      simp [concat, Except.map]
    obtain ⟨nn, en, ln⟩ : ∃ nn, AEAD.inc nonce 32 = .ok nn ∧ nn.length = 128 := by
      simp only [AEAD.inc]
      rw [if_neg (by omega)]
      refine ⟨_, rfl, ?_⟩
      simp [concat, h]
    simp only [Model.NoAssert.gctrCircuit, e1, e2, en, Except.map, bind, Except.bind, gctr_take j ek m nn hi ln]

theorem nonce_append (fiv hi : Integer) (iv : List Byte) (b : Build) (h : 8 ≤ iv.length) (hb : b = .ndebug ∨ iv.length = 8) :
    Model.NoAssert.setNonce b (fiv ++ hi) iv = (Model.NoAssert.setNonce b fiv iv).map fun x => x ++ hi := by
  rcases hb with rfl | h8
  · simp [Model.NoAssert.setNonce, Model.NoAssert.check, bind, Except.bind, Except.map, concat, show ¬ iv.length < 8 by omega]
  · cases b <;> simp [Model.NoAssert.setNonce, Model.NoAssert.check, bind, Except.bind, Except.map, concat, h8]

theorem gctr_circuit (j1 j2 : AESCircuit.Wires) (key : List Byte) (hk : key.length = 16) (ek : Integer) (h : AESCircuit.computeKS j1 (strToInt key) = .ok ek) :
    ∀ (m : Nat) (nonce : Integer), nonce.length = 128 →
      Model.NoAssert.gctrCircuit j2 ek m nonce = (Model.AESProver.gctrLoop (AESCircuit.aesBlock key) m nonce).map (·.1)
  | 0, _, _ => rfl
  | m + 1, nonce, hn => by
    have h2 := AESCircuit.C43_block j1 j2 key hk nonce hn
    simp only [h, bind, Except.bind] at h2
    obtain ⟨nn, en, ln⟩ : ∃ nn, AEAD.inc nonce 32 = .ok nn ∧ nn.length = 128 := by
      simp only [AEAD.inc]
      rw [if_neg (by omega)]
      refine ⟨_, rfl, ?_⟩
      simp [concat, hn]
    simp only [Model.NoAssert.gctrCircuit, Model.AESProver.gctrLoop, h2, en, bind, Except.bind, gctr_circuit j1 j2 key hk ek h m nn ln]
    cases AEAD.aes (AESCircuit.aesBlock key) nonce with
    | error e => rfl
    | ok t =>
      simp only []
      cases Model.AESProver.gctrLoop (AESCircuit.aesBlock key) m nn with
      | error e => rfl
      | ok r => rfl

/-- C86: the key stream of an `AESProver` is that of the blocks of AES-128 in counter mode of the other models, in both builds. -/
theorem C86_aes_prover_exact (b : Build) (j1 j2 : AESCircuit.Wires) (key fiv iv : List Byte) (hk : key.length = 16) (hf : fiv.length = 4) (hi : iv.length = 8) (m : Nat) :
    Model.NoAssert.aesStream b j1 j2 (strToInt key) (strToInt fiv) iv m
      = (AEAD.setNonce (strToInt fiv) iv).bind fun nonce => (Model.AESProver.gctrLoop (AESCircuit.aesBlock key) m nonce).map (·.1) := by
  obtain ⟨ek, e⟩ : ∃ ek, AESCircuit.computeKS j1 (strToInt key) = .ok ek := ⟨_, AESCircuit.C43_key_schedule j1 key hk⟩
  have hn : Model.NoAssert.setNonce b (strToInt fiv) iv = AEAD.setNonce (strToInt fiv) iv := by
    rw [← NoAssert.setNonce_checked]
    cases b
    · rfl
    · simp [Model.NoAssert.setNonce, Model.NoAssert.check, bind, Except.bind, hi]
  obtain ⟨nn, en, ln⟩ : ∃ nn, AEAD.setNonce (strToInt fiv) iv = .ok nn ∧ nn.length = 128 := by
    simp only [AEAD.setNonce]
    rw [if_neg (by omega)]
    refine ⟨_, rfl, ?_⟩
    simp [concat, hf, hi]
  have hp : Model.NoAssert.aesProver b j1 (strToInt key) (strToInt fiv) = .ok (ek, strToInt fiv) := by
    cases b <;> simp [Model.NoAssert.aesProver, Model.NoAssert.check, bind, Except.bind, hk, hf, e]
  simp only [Model.NoAssert.aesStream, hp, hn, en, bind, Except.bind]
  exact gctr_circuit j1 j2 key hk ek e m nn ln

/-- C86: without assertions an `AESProver` made with a longer key and a longer fixed iv is the one made with their first 128 and 32 bits: two keys that agree there give the same
key stream. -/
theorem C86_aes_prover_long (j1 j2 : AESCircuit.Wires) (key hiK fiv hiF : Integer) (hk : key.length = 128) (hf : fiv.length = 32) (iv : List Byte) (hi : iv.length = 8) (m : Nat) :
    Model.NoAssert.aesStream .ndebug j1 j2 (key ++ hiK) (fiv ++ hiF) iv m = Model.NoAssert.aesStream .checked j1 j2 key fiv iv m := by
  have e1 : AESCircuit.computeKS j1 (key ++ hiK) = AESCircuit.computeKS j1 key := by
    rw [AESCircuit.computeKS, AESCircuit.computeKS,
      compute_take AESCircuit.aesKs j1 (key ++ hiK) [] (by show 128 ≤ _; rw [List.length_append]; omega) (by show 0 ≤ _; omega),
      compute_take AESCircuit.aesKs j1 key [] (by show 128 ≤ _; omega) (by show 0 ≤ _; omega)]
    have c : (key ++ hiK).take AESCircuit.aesKs.n1 = key.take AESCircuit.aesKs.n1 := by
      show (key ++ hiK).take 128 = key.take 128
      rw [List.take_append_of_le_length (by omega)]
    rw [c]
  simp only [Model.NoAssert.aesStream, Model.NoAssert.aesProver, Model.NoAssert.check, hk, hf, e1, bind, Except.bind, if_true]
  cases AESCircuit.computeKS j1 key with
  | error e => rfl
  | ok ek =>
    simp only [nonce_append fiv hiF iv .ndebug (by omega) (Or.inl rfl)]
    have e2 : Model.NoAssert.setNonce .checked fiv iv = Model.NoAssert.setNonce .ndebug fiv iv := by
      simp [Model.NoAssert.setNonce, Model.NoAssert.check, bind, Except.bind, hi]
    rw [e2]
    obtain ⟨nn, en, ln⟩ : ∃ nn, Model.NoAssert.setNonce .ndebug fiv iv = .ok nn ∧ nn.length = 128 := by
      simp only [Model.NoAssert.setNonce, Model.NoAssert.check, bind, Except.bind]
      rw [if_neg (by omega)]
      refine ⟨_, rfl, ?_⟩
      simp [concat, hf, hi]
    simp only [en, Except.map]
    exact gctr_take j2 ek m nn hiF ln

/-- C86: a key or a fixed iv of the wrong length stops a build with assertions; without them a shorter key is read past its end, and so is the nonce made of a shorter fixed iv. -/
theorem C86_aes_prover_wrong (j1 j2 : AESCircuit.Wires) (key fiv : Integer) (iv : List Byte) (hi : iv.length = 8) (m : Nat) :
    (key.length ≠ 128 → Model.NoAssert.aesStream .checked j1 j2 key fiv iv m = .error (.error "assert(key.size() == 128)"))
    ∧ (key.length = 128 → fiv.length ≠ 32 → Model.NoAssert.aesStream .checked j1 j2 key fiv iv m = .error (.error "assert(iv.size() == 32)"))
    ∧ (key.length < 128 → Model.NoAssert.aesStream .ndebug j1 j2 key fiv iv m = .error (.ub "BristolFormat: input too short"))
    ∧ (128 ≤ key.length → fiv.length < 32 → Model.NoAssert.aesStream .ndebug j1 j2 key fiv iv (m + 1) = .error (.ub "BristolFormat: input too short")) := by
  have ks : ∀ k : Integer, 128 ≤ k.length → ∃ ek, AESCircuit.computeKS j1 k = .ok ek := by
    intro k hk
    rw [AESCircuit.computeKS, AESCircuit.Circuit.compute, if_neg (by show ¬ (k.length < 128 ∨ 0 < 0); omega)]
    exact ⟨_, rfl⟩
  refine ⟨?_, ?_, ?_, ?_⟩
  · intro h
    simp only [Model.NoAssert.aesStream, Model.NoAssert.aesProver, Model.NoAssert.check, bind, Except.bind]
    rw [if_neg h]
  · intro h h'
    obtain ⟨ek, e⟩ := ks key (by omega)
    simp only [Model.NoAssert.aesStream, Model.NoAssert.aesProver, Model.NoAssert.check, bind, Except.bind]
    rw [if_pos h]
    simp only [e]
    rw [if_neg h']
  · intro h
    simp only [Model.NoAssert.aesStream, Model.NoAssert.aesProver, Model.NoAssert.check, bind, Except.bind]
    rw [AESCircuit.computeKS, AESCircuit.Circuit.compute, if_pos (Or.inl (by show key.length < 128; omega))]
  · intro h h'
    obtain ⟨ek, e⟩ := ks key (by omega)
    simp only [Model.NoAssert.aesStream, Model.NoAssert.aesProver, Model.NoAssert.check, bind, Except.bind, e, Model.NoAssert.setNonce]
    rw [if_neg (by omega)]
    simp only [Model.NoAssert.gctrCircuit, AESCircuit.computeAESKS, AESCircuit.Circuit.compute, bind, Except.bind]
    rw [if_pos (Or.inr (by show _ < 128; simp [concat, hi]; omega))]

/-! ### Examples -/

/-- The keys, bits and random values of the example of C35. -/
def exBits : List (Block × Bool) :=
  [true, false, true, true, true, false, false, true, false, true, true, true, false].mapIdx fun i b => (BitVec.ofNat 128 (2 * i * i + 2), b)

def exRand : Rand := ⟨77, 5, 200, [1, 2, 250], 9, 3, 77, fun i => BitVec.ofNat 128 (i * i + 5)⟩

/-- C88, thirteen bits in three chunks and vectors of four, three and five elements: the honest receiver is refused. -/
example (ks : Bool) : ∃ out, comRun .ndebug ComConv.exEnv ks 0x8000000000000000000000000000abcd#128 (exBits.map (·.1))
      (exBits.map fun p => p.1 ^^^ (if p.2 then 0x8000000000000000000000000000abcd#128 else 0)) 5 exRand
      ⟨List.replicate 4 0, List.replicate 3 0, List.replicate 5 0⟩ = .ok out ∧ out.recvOk = true ∧ out.sendOk = false := by
  obtain ⟨out, h1, h2, h3, -⟩ := C88_honest ComConv.exEnv (by decide +kernel) (by decide +kernel) ks 0x8000000000000000000000000000abcd#128 (by decide +kernel)
    exBits (by decide +kernel) 5 (by decide) (by decide) (by decide) exRand (by decide) (by decide) (by decide) 4 3 5 (by decide) (by decide) (by decide)
  refine ⟨out, h1, h2, ?_⟩
  have : ¬ exRand.r • ComConv.exEnv.g = 0 := by decide +kernel
  rw [← h3] at this
  simpa using this

/-- C88, the hypothesis of the theorems about any run. -/
example (ks : Bool) : ∃ out, ComConv.exEnv.run ks 0x8000000000000000000000000000abcd#128 (exBits.map (·.1))
      (exBits.map fun p => p.1 ^^^ (if p.2 then 0x8000000000000000000000000000abcd#128 else 0)) 5 exRand = .ok out := by
  obtain ⟨out, h1, -⟩ := ComConv.C35_honest_partial ComConv.exEnv (by decide +kernel) (by decide +kernel) ks 0x8000000000000000000000000000abcd#128 (by decide +kernel)
    exBits (by decide +kernel) 5 (by decide) (by decide) (by decide) exRand (by decide) (by decide) (by decide)
  exact ⟨out, h1⟩

/-- C86, OLE: three inputs and two outputs. -/
example : Model.NoAssert.oleCompute .ndebug (fun b => b * b + 3#128) 11 3 6 (fun i => BitVec.ofNat 128 (i * i)) 2 2 [4, 5, 6] [3, 7, 1]
    = OLE.compute (fun b => b * b + 3#128) 11 3 6 (fun i => BitVec.ofNat 128 (i * i)) [4, 5] [3, 7] := rfl

/-- C86, a key of 136 bits and a fixed iv of 40 bits. -/
example (j1 j2 : AESCircuit.Wires) (m : Nat) :
    Model.NoAssert.aesStream .ndebug j1 j2 (strToInt (List.replicate 16 7) ++ List.replicate 8 true) (strToInt [1, 2, 3, 4] ++ List.replicate 8 false) (List.replicate 8 9) m
      = Model.NoAssert.aesStream .ndebug j1 j2 (strToInt (List.replicate 16 7)) (strToInt [1, 2, 3, 4]) (List.replicate 8 9) m := by
  have h1 := C86_aes_prover_long j1 j2 (strToInt (List.replicate 16 7)) (List.replicate 8 true) (strToInt [1, 2, 3, 4]) (List.replicate 8 false) (by simp) (by simp)
    (List.replicate 8 9) (by simp) m
  have h2 := C86_aes_prover_long j1 j2 (strToInt (List.replicate 16 7)) [] (strToInt [1, 2, 3, 4]) [] (by simp) (by simp) (List.replicate 8 9) (by simp) m
  rw [List.append_nil, List.append_nil] at h2
  rw [h1, h2]

end Verif.Props.NoAssertConv
