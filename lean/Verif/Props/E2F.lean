import Verif.Model.E2F
import Verif.Props.OLE
import Mathlib.Data.ZMod.Basic
import Mathlib.Algebra.Field.ZMod
import Mathlib.Tactic.FieldSimp
import Mathlib.Tactic.LinearCombination
import Mathlib.AlgebraicGeometry.EllipticCurve.Affine.Point

/-! C23: shares of a point to shares of the x coordinate. -/

namespace Verif.Props
open Verif.Model Verif.Model.E2F

/-- What the offline phase must give. -/
structure PreOk (q : Nat) (ra rb : Rand) (pa pb : Pre) : Prop where
  aA : (pa.a : ZMod q) = ra.a
  aB : (pb.a : ZMod q) = rb.a
  bA : (pa.b : ZMod q) = ra.b
  bB : (pb.b : ZMod q) = rb.b
  pA : (pa.bp : ZMod q) = ra.bp
  pB : (pb.bp : ZMod q) = rb.bp
  rA : (pa.r : ZMod q) = ra.r
  rB : (pb.r : ZMod q) = rb.r
  c : (pa.c : ZMod q) + pb.c = (ra.a + rb.a) * (ra.b + rb.b)
  cp : (pa.cp : ZMod q) + pb.cp = (ra.a + rb.a) * (ra.bp + rb.bp)
  r2 : (pa.r2 : ZMod q) + pb.r2 = (ra.r + rb.r) ^ 2

theorem cast_emod (q : Nat) (x : Int) : ((x % (q : Int) : Int) : ZMod q) = x := ZMod.intCast_mod x q

theorem zmod_of_emod (q : Nat) (a b : Int) (h : a % q = b % q) : (a : ZMod q) = b :=
  (ZMod.intCast_eq_intCast_iff a b q).mpr h

theorem offline_ok (q : Nat) (ra rb : Rand) (oa ob : List Int) (la : oa.length = 5) (lb : ob.length = 5)
    (h : ∀ (k : Nat) (a b : Int) (x y : Nat), (aliceIn ra)[k]? = some x → (bobIn rb)[k]? = some y →
      oa[k]? = some a → ob[k]? = some b → (a + b) % (q : Int) = (x * y : Int) % q) :
    ∃ pa pb, offline q ra oa = .ok pa ∧ offline q rb ob = .ok pb ∧ PreOk q ra rb pa pb := by
  match oa, la with
  | [a0, a1, a2, a3, a4], _ =>
    match ob, lb with
    | [b0, b1, b2, b3, b4], _ =>
      refine ⟨_, _, rfl, rfl, ?_⟩
      have h0 := zmod_of_emod _ _ _ (h 0 a0 b0 _ _ rfl rfl rfl rfl)
      have h1 := zmod_of_emod _ _ _ (h 1 a1 b1 _ _ rfl rfl rfl rfl)
      have h2 := zmod_of_emod _ _ _ (h 2 a2 b2 _ _ rfl rfl rfl rfl)
      have h3 := zmod_of_emod _ _ _ (h 3 a3 b3 _ _ rfl rfl rfl rfl)
      have h4 := zmod_of_emod _ _ _ (h 4 a4 b4 _ _ rfl rfl rfl rfl)
      push_cast at h0 h1 h2 h3 h4
      constructor <;> simp only [Int.cast_natCast, cast_emod, Int.cast_add, Int.cast_mul]
      · linear_combination h0 + h1
      · linear_combination h2 + h3
      · linear_combination 2 * h4

theorem reduce_lt (q n : Nat) (hq : 0 < q) (hn : q ≤ 2 ^ n) (r : Rand) :
    (∀ y ∈ aliceIn (r.reduce q), y < 2 ^ n) ∧ (∀ y ∈ bobIn (r.reduce q), y < 2 ^ n) := by
  have : ∀ x, x % q < 2 ^ n := fun x => lt_of_lt_of_le (Nat.mod_lt _ hq) hn
  constructor <;> intro y hy <;> simp [aliceIn, bobIn, Rand.reduce] at hy <;> aesop

theorem offlineBoth_ok (ccrh : Block → Block) (q n : Nat) (hq : 0 < q) (hn : q ≤ 2 ^ n) (delta : Block) (K : Nat → Block)
    (s : Bool) (ra rb : Rand) :
    ∃ pa pb, offlineBoth ccrh q n delta K s ra rb = .ok (pa, pb) ∧ PreOk q ra rb pa pb := by
  have red : ∀ pa pb, PreOk q (ra.reduce q) (rb.reduce q) pa pb → PreOk q ra rb pa pb := by
    intro pa pb h
    have e : ∀ x : Nat, (((x % q : Nat)) : ZMod q) = x := fun x => ZMod.natCast_mod x q
    obtain ⟨h1, h2, h3, h4, h5, h6, h7, h8, h9, h10, h11⟩ := h
    simp only [Rand.reduce, e] at h1 h2 h3 h4 h5 h6 h7 h8 h9 h10 h11
    exact ⟨h1, h2, h3, h4, h5, h6, h7, h8, h9, h10, h11⟩
  cases s with
  | true =>
    obtain ⟨oa, ob, e, l1, l2, hh⟩ := C21_ole ccrh q n delta K ((aliceIn (ra.reduce q)).map Int.ofNat) (bobIn (rb.reduce q))
      (by simp [aliceIn, bobIn]) (reduce_lt q n hq hn rb).2
    obtain ⟨pa, pb, e1, e2, h⟩ := offline_ok q (ra.reduce q) (rb.reduce q) oa ob (by simpa [aliceIn] using l1)
      (by simpa [aliceIn] using l2) (by
        intro k a b x y h1 h2 h3 h4
        exact hh k x a b y (by simp [List.getElem?_map, h1]) h2 h3 h4)
    refine ⟨pa, pb, ?_, red _ _ h⟩
    simp only [offlineBoth, if_true, e, e1, e2, bind, Except.bind]
  | false =>
    obtain ⟨ob, oa, e, l1, l2, hh⟩ := C21_ole ccrh q n delta K ((bobIn (rb.reduce q)).map Int.ofNat) (aliceIn (ra.reduce q))
      (by simp [aliceIn, bobIn]) (reduce_lt q n hq hn ra).1
    obtain ⟨pa, pb, e1, e2, h⟩ := offline_ok q (ra.reduce q) (rb.reduce q) oa ob (by simpa [bobIn] using l2)
      (by simpa [bobIn] using l1) (by
        intro k a b x y h1 h2 h3 h4
        have := hh k y b a x (by simp [List.getElem?_map, h2]) h1 h4 h3
        rw [Int.add_comm, this, Int.mul_comm])
    refine ⟨pa, pb, ?_, red _ _ h⟩
    simp only [offlineBoth, Bool.false_eq_true, if_false, e, e1, e2, bind, Except.bind]

theorem modInverse_spec (q : Nat) [hp : Fact q.Prime] (w : Int) (h : (w : ZMod q) ≠ 0) :
    ((modInverse q w : Int) : ZMod q) * w = 1 := by
  have hd : ¬ (q : Int) ∣ w := by
    rwa [← ZMod.intCast_zmod_eq_zero_iff_dvd, ← ne_eq]
  have hg : Int.gcd w q = 1 := by
    have hc : Nat.Coprime q w.natAbs := (Nat.Prime.coprime_iff_not_dvd hp.out).mpr (fun h => hd (Int.natCast_dvd.mpr h))
    rw [Int.gcd_comm]
    simpa [Int.gcd] using hc
  unfold modInverse
  rw [if_pos hg, cast_emod]
  have := Int.gcd_eq_gcd_ab w q
  rw [hg] at this
  have h2 := congrArg (Int.cast : Int → ZMod q) this
  push_cast at h2
  simp at h2
  rw [mul_comm]; exact h2.symm

/-- The x coordinate of the sum of two points with different x coordinates. -/
def sumX {F : Type} [Field F] (xa ya xb yb : F) : F := ((yb - ya) / (xb - xa)) ^ 2 - xa - xb

theorem emod_eq_zero_iff (q : Nat) (x : Int) : (x % (q : Int) = 0) ↔ (x : ZMod q) = 0 := by
  rw [ZMod.intCast_zmod_eq_zero_iff_dvd, Int.dvd_iff_emod_eq_zero]

/-- The opened denominator. -/
def wOpen (q : Nat) (pa pb : Pre) (xa xb : Int) : Int :=
  (((((q : Int) - xa - pa.b) % q + (xb - pb.b) % q) % q * pa.a % q + pa.c) % q
    + (((xb - pb.b) % q + ((q : Int) - xa - pa.b) % q) % q * pb.a % q + pb.c) % q) % q

/-- The opened slope. -/
def etaOpen (q : Nat) (pa pb : Pre) (I ya yb : Int) : Int :=
  ((I * (((((q : Int) - ya - pa.bp) % q + (yb - pb.bp) % q) % q * pa.a % q + pa.cp) % q) % q - pa.r) % q
    + (I * ((((yb - pb.bp) % q + ((q : Int) - ya - pa.bp) % q) % q * pb.a % q + pb.cp) % q) % q - pb.r) % q) % q

def finA (q : Nat) (pa : Pre) (e xa : Int) : Int :=
  (((e * pa.r % q + e * pa.r % q) % q + pa.r2) % q - xa) % q

theorem online_eq (q : Nat) (pa pb : Pre) (xa ya xb yb : Int) :
    online q pa pb xa ya xb yb =
      if wOpen q pa pb xa xb = 0 then .error (.error "w is zero, invalid!")
      else
        let I := modInverse q (wOpen q pa pb xa xb)
        let e := etaOpen q pa pb I ya yb
        .ok ((finA q pa e xa + 0) % q, (finA q pb e xb + e * e % q) % q) := by
  have h1 : ((((xb - pb.b) % q + ((q : Int) - xa - pa.b) % q) % q * pb.a % q + pb.c) % q
      + ((((q : Int) - xa - pa.b) % q + (xb - pb.b) % q) % q * pa.a % q + pa.c) % q) % q = wOpen q pa pb xa xb := by
    rw [Int.add_comm]; rfl
  have h2 : ∀ I : Int, ((I * ((((yb - pb.bp) % q + ((q : Int) - ya - pa.bp) % q) % q * pb.a % q + pb.cp) % q) % q - pb.r) % q
      + (I * (((((q : Int) - ya - pa.bp) % q + (yb - pb.bp) % q) % q * pa.a % q + pa.cp) % q) % q - pa.r) % q) % q
      = etaOpen q pa pb I ya yb := by
    intro I; rw [Int.add_comm]; rfl
  by_cases hz : wOpen q pa pb xa xb = 0
  · have hz' := hz
    unfold wOpen at hz'
    simp only [online, openv, hz', hz, if_true, bind, Except.bind]
  · have hz' := hz
    unfold wOpen at hz'
    simp only [online, openv, h1, hz, hz', if_false, bind, Except.bind]
    have h3 : (((((q : Int) - xa - pa.b) % q + (xb - pb.b) % q) % q * pa.a % q + pa.c) % q
      + (((xb - pb.b) % q + ((q : Int) - xa - pa.b) % q) % q * pb.a % q + pb.c) % q) % q = wOpen q pa pb xa xb := rfl
    have h4 : ∀ I : Int, ((I * (((((q : Int) - ya - pa.bp) % q + (yb - pb.bp) % q) % q * pa.a % q + pa.cp) % q) % q - pa.r) % q
      + (I * ((((yb - pb.bp) % q + ((q : Int) - ya - pa.bp) % q) % q * pb.a % q + pb.cp) % q) % q - pb.r) % q) % q
      = etaOpen q pa pb I ya yb := fun _ => rfl
    rw [h3, h2, h4]
    rfl

theorem wOpen_cast (q : Nat) (ra rb : Rand) (pa pb : Pre) (h : PreOk q ra rb pa pb) (xa xb : Int) :
    ((wOpen q pa pb xa xb : Int) : ZMod q) = ((xb : ZMod q) - xa) * (ra.a + rb.a) := by
  have hq0 : ((q : Nat) : ZMod q) = 0 := ZMod.natCast_self q
  unfold wOpen
  simp only [Int.cast_add, Int.cast_mul, Int.cast_sub, cast_emod, Int.cast_natCast, hq0]
  rw [h.bA, h.bB, h.aA, h.aB]
  linear_combination h.c

theorem online_ok (q : Nat) [hp : Fact q.Prime] (ra rb : Rand) (pa pb : Pre) (h : PreOk q ra rb pa pb) (xa ya xb yb : Int) :
    (((xb : ZMod q) - xa) * (ra.a + rb.a) = 0 ∧ online q pa pb xa ya xb yb = .error (.error "w is zero, invalid!"))
    ∨ (((xb : ZMod q) - xa) * (ra.a + rb.a) ≠ 0 ∧ ∃ oa ob, online q pa pb xa ya xb yb = .ok (oa, ob)
      ∧ 0 ≤ oa ∧ oa < q ∧ 0 ≤ ob ∧ ob < q
      ∧ ((oa + ob : Int) : ZMod q) = sumX (xa : ZMod q) ya xb yb) := by
  have hq0 : ((q : Nat) : ZMod q) = 0 := ZMod.natCast_self q
  have hqpos : (0 : Int) < q := by exact_mod_cast hp.out.pos
  have hw := wOpen_cast q ra rb pa pb h xa xb
  have hiff : wOpen q pa pb xa xb = 0 ↔ ((xb : ZMod q) - xa) * (ra.a + rb.a) = 0 := by
    rw [← hw]
    unfold wOpen
    rw [emod_eq_zero_iff, cast_emod]
  rw [online_eq]
  by_cases hz : ((xb : ZMod q) - xa) * (ra.a + rb.a) = 0
  · exact Or.inl ⟨hz, by rw [if_pos (hiff.mpr hz)]⟩
  · right
    rw [if_neg (fun h => hz (hiff.mp h))]
    refine ⟨hz, _, _, rfl, Int.emod_nonneg _ hqpos.ne',
      Int.emod_lt_of_pos _ hqpos, Int.emod_nonneg _ hqpos.ne', Int.emod_lt_of_pos _ hqpos, ?_⟩
    have hi := modInverse_spec q (wOpen q pa pb xa xb) (by rw [hw]; exact hz)
    generalize modInverse q (wOpen q pa pb xa xb) = I at hi ⊢
    rw [hw] at hi
    have hx : (xb : ZMod q) - xa ≠ 0 := left_ne_zero_of_mul hz
    have ha : (ra.a : ZMod q) + rb.a ≠ 0 := right_ne_zero_of_mul hz
    have hI : (I : ZMod q) = 1 / (((xb : ZMod q) - xa) * (ra.a + rb.a)) := by
      rw [eq_div_iff hz]; exact hi
    have hlam : (I : ZMod q) * ((ra.a + rb.a) * ((yb : ZMod q) - ya)) = ((yb : ZMod q) - ya) / (xb - xa) := by
      rw [hI]; field_simp
    have he : ((etaOpen q pa pb I ya yb : Int) : ZMod q)
        = I * ((ra.a + rb.a) * ((yb : ZMod q) - ya)) - (ra.r + rb.r) := by
      unfold etaOpen
      simp only [Int.cast_add, Int.cast_mul, Int.cast_sub, cast_emod, Int.cast_natCast, hq0]
      rw [h.pA, h.pB, h.aA, h.aB, h.rA, h.rB]
      linear_combination (I : ZMod q) * h.cp
    generalize etaOpen q pa pb I ya yb = e at he ⊢
    simp only [finA, Int.cast_add, Int.cast_mul, Int.cast_sub, cast_emod, Int.cast_zero]
    rw [h.rA, h.rB]
    unfold sumX
    rw [← hlam]
    generalize (I : ZMod q) * ((ra.a + rb.a) * ((yb : ZMod q) - ya)) = l at he
    rw [he]
    linear_combination h.r2

/-- **C23.**  For every prime `q` of at most `n` bits, all random numbers of both parties, every hash function, every
correlated OT, whichever party holds its offset, and all coordinates: if the opened denominator
`(x_b - x_a)(a_A + a_B)` is zero modulo `q` the run ends in the error of the code, otherwise it ends with reduced outputs
that add modulo `q` to the x coordinate of the sum of the points. -/
theorem C23_e2f (ccrh : Block → Block) (q n : Nat) [Fact q.Prime] (hn : q ≤ 2 ^ n) (delta : Block) (K : Nat → Block)
    (s : Bool) (ra rb : Rand) (xa ya xb yb : Int) :
    (((xb : ZMod q) - xa) * (ra.a + rb.a) = 0
      ∧ run ccrh q n delta K s ra rb xa ya xb yb = .error (.error "w is zero, invalid!"))
    ∨ (((xb : ZMod q) - xa) * (ra.a + rb.a) ≠ 0 ∧ ∃ oa ob, run ccrh q n delta K s ra rb xa ya xb yb = .ok (oa, ob)
      ∧ 0 ≤ oa ∧ oa < q ∧ 0 ≤ ob ∧ ob < q
      ∧ ((oa + ob : Int) : ZMod q) = sumX (xa : ZMod q) ya xb yb) := by
  obtain ⟨pa, pb, e, h⟩ := offlineBoth_ok ccrh q n (Nat.Prime.pos Fact.out) hn delta K s ra rb
  have := online_ok q ra rb pa pb h xa ya xb yb
  simp only [run, e, bind, Except.bind]
  exact this

/-- The formula is the x coordinate of the sum in the group of the curve `y² = x³ + a x + b`. -/
theorem C23_group (F : Type) [Field F] [DecidableEq F] (a b : F) {xa ya xb yb : F}
    (ha : (⟨0, 0, 0, a, b⟩ : WeierstrassCurve F).toAffine.Nonsingular xa ya)
    (hb : (⟨0, 0, 0, a, b⟩ : WeierstrassCurve F).toAffine.Nonsingular xb yb) (hx : xa ≠ xb) :
    ∃ y h, (WeierstrassCurve.Affine.Point.some xa ya ha + WeierstrassCurve.Affine.Point.some xb yb hb)
      = WeierstrassCurve.Affine.Point.some (sumX xa ya xb yb) y h := by
  rw [WeierstrassCurve.Affine.Point.add_of_X_ne hx]
  have : (⟨0, 0, 0, a, b⟩ : WeierstrassCurve F).toAffine.addX xa xb
      ((⟨0, 0, 0, a, b⟩ : WeierstrassCurve F).toAffine.slope xa xb ya yb) = sumX xa ya xb yb := by
    rw [WeierstrassCurve.Affine.slope_of_X_ne hx, WeierstrassCurve.Affine.addX, sumX]
    have e : (ya - yb) / (xa - xb) = (yb - ya) / (xb - xa) := by
      rw [← neg_sub yb ya, ← neg_sub xb xa, neg_div_neg_eq]
    rw [e]; ring
  generalize_proofs hh
  revert hh
  rw [this]
  intro hh
  exact ⟨_, hh, rfl⟩

/-- Equal x coordinates are always refused, and so is a zero sum of the masks. -/
theorem C23_refused (ccrh : Block → Block) (q n : Nat) [Fact q.Prime] (hn : q ≤ 2 ^ n) (delta : Block) (K : Nat → Block)
    (s : Bool) (ra rb : Rand) (xa ya xb yb : Int) (h : (xb : ZMod q) = xa ∨ ((ra.a : ZMod q) + rb.a) = 0) :
    run ccrh q n delta K s ra rb xa ya xb yb = .error (.error "w is zero, invalid!") := by
  rcases C23_e2f ccrh q n hn delta K s ra rb xa ya xb yb with ⟨_, e⟩ | ⟨hne, _⟩
  · exact e
  · exfalso
    rcases h with h | h
    · exact hne (by rw [h]; ring)
    · exact hne (by rw [h]; ring)

example : Fact (Nat.Prime 101) := ⟨by decide +kernel⟩

/-- A run that is not refused: `(7-3)(12+30) ≠ 0` modulo 101. -/
example : ∃ oa ob, run (fun b => b * b + 3#128) 101 7 5 (fun i => BitVec.ofNat 128 (i * 7 + 1)) true ⟨12, 4, 9, 55⟩ ⟨30, 8, 77, 2⟩
    3 10 7 50 = .ok (oa, ob) ∧ (oa + ob) % 101 = (100 - 10) % 101 := by
  refine ⟨_, _, rfl, by decide +kernel⟩

end Verif.Props
