import Verif.Model.E2FParty
import Verif.Props.E2F

/-! C55: what the messages of the point conversion tell. -/

namespace Verif.Props.E2FView
open Verif.Model Verif.Model.E2F Verif.Props

/-- The parties apart give the result of the joint run. -/
theorem C55_parties (q : Nat) (pa pb : Pre) (xa ya xb yb : Int) : (talk q pa pb xa ya xb yb).2.2 = online q pa pb xa ya xb yb := by
  rw [online_eq]
  have hB : ((((xb - pb.b) % (q : Int) + ((q : Int) - xa - pa.b) % q) % q * pb.a % q + pb.c) % q
      + ((((q : Int) - xa - pa.b) % q + (xb - pb.b) % q) % q * pa.a % q + pa.c) % q) % q = wOpen q pa pb xa xb := by
    rw [Int.add_comm]; rfl
  by_cases hw : wOpen q pa pb xa xb = 0
  · rw [if_pos hw]
    unfold talk
    dsimp only
    rw [if_pos]
    exact Or.inl hw
  · rw [if_neg hw]
    unfold talk
    dsimp only
    rw [if_neg]
    · have hA : (second q pa (((first q true pa xa ya).1 + (first q false pb xb yb).1) % q)
          + second q pb (((first q false pb xb yb).1 + (first q true pa xa ya).1) % q)) % (q : Int) = wOpen q pa pb xa xb := rfl
      have hB' : (second q pb (((first q false pb xb yb).1 + (first q true pa xa ya).1) % q)
          + second q pa (((first q true pa xa ya).1 + (first q false pb xb yb).1) % q)) % (q : Int) = wOpen q pa pb xa xb := hB
      rw [hA, hB', Int.add_comm (third q pb _ _)]
      rfl
    · rw [not_or]
      refine ⟨hw, fun h => hw (by rw [← hB]; exact h)⟩

/-- Random numbers of a party as residues: `a`, `b`, `bp`, `r`. -/
abbrev Res4 (q : Nat) := ZMod q × ZMod q × ZMod q × ZMod q

def toRand {q : Nat} (r : Res4 q) : Rand := ⟨r.1.val, r.2.1.val, r.2.2.1.val, r.2.2.2.val⟩

/-- The outputs of an ideal OLE for the other party: products minus the outputs `o`. -/
def other (q : Nat) (x y : List Nat) (o : List Int) : List Int := List.zipWith (fun (p : Nat × Nat) o => ((p.1 * p.2 : Int) - o) % q) (x.zip y) o

/-- Messages of BOB to ALICE. -/
def toAlice (q : Nat) (ra : Rand) (oa : List Int) (xa ya : Int) (xb yb : Int) (r : Res4 q) : Res (List Int) := do
  let pa ← offline q ra oa
  let pb ← offline q (toRand r) (other q (aliceIn ra) (bobIn (toRand r)) oa)
  .ok (talk q pa pb xa ya xb yb).2.1

/-- Messages of ALICE to BOB. -/
def toBob (q : Nat) (rb : Rand) (ob : List Int) (xb yb : Int) (xa ya : Int) (r : Res4 q) : Res (List Int) := do
  let pb ← offline q rb ob
  let pa ← offline q (toRand r) (other q (aliceIn (toRand r)) (bobIn rb) ob)
  .ok (talk q pa pb xa ya xb yb).1

/-- The change of random numbers: `s`, `t` are the differences of the coordinates, `k` the quotient of the denominators, `l` the difference of the slopes,
`a` the mask of the other party. -/
def change {F : Type} [Field F] (a s t k l : F) (hk : k ≠ 0) : (F × F × F × F) ≃ (F × F × F × F) where
  toFun r := ((a + r.1) * k - a, r.2.1 + s, r.2.2.1 + t, r.2.2.2 + l)
  invFun r := ((a + r.1) / k - a, r.2.1 - s, r.2.2.1 - t, r.2.2.2 - l)
  left_inv r := by ext <;> simp; field_simp; ring
  right_inv r := by ext <;> simp; field_simp; ring

theorem emod_congr (q : Nat) {x y : Int} (h : (x : ZMod q) = y) : x % q = y % q := (ZMod.intCast_eq_intCast_iff x y q).1 h

theorem second_sum {q : Nat} {ra rb : Rand} {pa pb : Pre} (h : PreOk q ra rb pa pb) (e : Int) :
    ((second q pa e : Int) : ZMod q) + (second q pb e : Int) = e * (ra.a + rb.a) + (ra.a + rb.a) * (ra.b + rb.b) := by
  simp only [second, cast_emod, Int.cast_add, Int.cast_mul, h.aA, h.aB]
  linear_combination h.c

theorem third_sum {q : Nat} {ra rb : Rand} {pa pb : Pre} (h : PreOk q ra rb pa pb) (w e : Int) :
    ((third q pa w e : Int) : ZMod q) + (third q pb w e : Int)
      = (modInverse q w : Int) * (e * (ra.a + rb.a) + (ra.a + rb.a) * (ra.bp + rb.bp)) - (ra.r + rb.r) := by
  simp only [third, cast_emod, Int.cast_add, Int.cast_sub, Int.cast_mul, h.aA, h.aB, h.rA, h.rB]
  linear_combination (modInverse q w : ZMod q) * h.cp

theorem first_cast {q : Nat} (alice : Bool) (p : Pre) (x y : Int) :
    (((first q alice p x y).1 : Int) : ZMod q) = (if alice then -(x : ZMod q) else x) - p.b
    ∧ (((first q alice p x y).2 : Int) : ZMod q) = (if alice then -(y : ZMod q) else y) - p.bp := by
  cases alice <;> simp [first]

theorem second_bounds (q : Nat) (p : Pre) (e : Int) : second q p e % q = second q p e := Int.emod_emod _ _

theorem third_bounds (q : Nat) (p : Pre) (w e : Int) : third q p w e % q = third q p w e := Int.emod_emod _ _

theorem first_bounds (q : Nat) (alice : Bool) (p : Pre) (x y : Int) :
    (first q alice p x y).1 % q = (first q alice p x y).1 ∧ (first q alice p x y).2 % q = (first q alice p x y).2 :=
  ⟨Int.emod_emod _ _, Int.emod_emod _ _⟩

theorem eq_of_cast (q : Nat) {x y : Int} (hx : x % q = x) (hy : y % q = y) (h : (x : ZMod q) = y) : x = y := by
  rw [← hx, ← hy, emod_congr q h]

/-- The messages of both parties as the opened values give them. -/
theorem talk_eq (q : Nat) (pa pb : Pre) (xa ya xb yb : Int) :
    let a := first q true pa xa ya
    let b := first q false pb xb yb
    let a3 := second q pa ((a.1 + b.1) % q)
    let b3 := second q pb ((a.1 + b.1) % q)
    let w := (a3 + b3) % q
    let e := (a.2 + b.2) % q
    (talk q pa pb xa ya xb yb).1 = [a.1, a.2, a3] ++ (if w = 0 then [] else [third q pa w e])
    ∧ (talk q pa pb xa ya xb yb).2.1 = [b.1, b.2, b3] ++ (if w = 0 then [] else [third q pb w e]) := by
  intro a b a3 b3 w e
  have h1 : (b.1 + a.1) % (q : Int) = (a.1 + b.1) % q := by rw [Int.add_comm]
  have h2 : (b.2 + a.2) % (q : Int) = (a.2 + b.2) % q := by rw [Int.add_comm]
  have h3 : (b3 + a3) % (q : Int) = w := by rw [Int.add_comm]
  have hb3 : second q pb ((b.1 + a.1) % q) = b3 := by rw [h1]
  by_cases hw : w = 0
  · have : talk q pa pb xa ya xb yb = ([a.1, a.2, a3], [b.1, b.2, second q pb ((b.1 + a.1) % q)], .error (.error "w is zero, invalid!")) := by
      show (if _ then _ else _) = _
      rw [if_pos]
      left
      show (a3 + second q pb ((b.1 + a.1) % q)) % q = 0
      rw [hb3]; exact hw
    rw [this, hb3, if_pos hw, if_pos hw]
    exact ⟨rfl, rfl⟩
  · have : (talk q pa pb xa ya xb yb).1 = [a.1, a.2, a3, third q pa ((a3 + second q pb ((b.1 + a.1) % q)) % q) e]
        ∧ (talk q pa pb xa ya xb yb).2.1 = [b.1, b.2, second q pb ((b.1 + a.1) % q), third q pb ((second q pb ((b.1 + a.1) % q) + a3) % q) ((b.2 + a.2) % q)] := by
      unfold talk
      dsimp only
      rw [if_neg]
      · exact ⟨rfl, rfl⟩
      · rw [not_or]
        refine ⟨?_, ?_⟩
        · show ¬ (a3 + second q pb ((b.1 + a.1) % q)) % q = 0
          rw [hb3]; exact hw
        · show ¬ (second q pb ((b.1 + a.1) % q) + a3) % q = 0
          rw [hb3, h3]; exact hw
    rw [this.1, this.2, hb3, h2, h3, if_neg hw, if_neg hw]
    exact ⟨rfl, rfl⟩

/-- Two runs of ALICE with the same state and two BOBs whose masked values agree: the messages of BOB agree. -/
theorem bob_congr (q : Nat) [Fact q.Prime] {ra rb rb' : Rand} {pa pb pb' : Pre} (h : PreOk q ra rb pa pb) (h' : PreOk q ra rb' pa pb')
    (xa ya xb yb xb' yb' : Int) (hx : (xb : ZMod q) - xa ≠ 0) (hx' : (xb' : ZMod q) - xa ≠ 0)
    (e1 : (xb : ZMod q) - rb.b = xb' - rb'.b) (e2 : (yb : ZMod q) - rb.bp = yb' - rb'.bp)
    (hw : ((xb : ZMod q) - xa) * (ra.a + rb.a) = ((xb' : ZMod q) - xa) * (ra.a + rb'.a))
    (hl : ((yb : ZMod q) - ya) / (xb - xa) - rb.r = ((yb' : ZMod q) - ya) / (xb' - xa) - rb'.r) :
    (talk q pa pb xa ya xb yb).2.1 = (talk q pa pb' xa ya xb' yb').2.1 := by
  rw [(talk_eq q pa pb xa ya xb yb).2, (talk_eq q pa pb' xa ya xb' yb').2]
  have f := first_bounds q false pb xb yb
  have f' := first_bounds q false pb' xb' yb'
  have c := first_cast (q := q) false pb xb yb
  have c' := first_cast (q := q) false pb' xb' yb'
  have ca := first_cast (q := q) true pa xa ya
  have hb1 : (first q false pb xb yb).1 = (first q false pb' xb' yb').1 :=
    eq_of_cast q f.1 f'.1 (by rw [c.1, c'.1, h.bB, h'.bB]; simpa using e1)
  have hb2 : (first q false pb xb yb).2 = (first q false pb' xb' yb').2 :=
    eq_of_cast q f.2 f'.2 (by rw [c.2, c'.2, h.pB, h'.pB]; simpa using e2)
  rw [hb1, hb2]
  have ex : ((((first q true pa xa ya).1 + (first q false pb' xb' yb').1) % q : Int) : ZMod q) = xb - xa - (ra.b + rb.b) := by
    rw [← hb1, cast_emod, Int.cast_add, ca.1, c.1, h.bA, h.bB]
    simp
    ring
  have ex' : ((((first q true pa xa ya).1 + (first q false pb' xb' yb').1) % q : Int) : ZMod q) = xb' - xa - (ra.b + rb'.b) := by
    rw [cast_emod, Int.cast_add, ca.1, c'.1, h.bA, h'.bB]
    simp
    ring
  have ey : ((((first q true pa xa ya).2 + (first q false pb' xb' yb').2) % q : Int) : ZMod q) = yb - ya - (ra.bp + rb.bp) := by
    rw [← hb2, cast_emod, Int.cast_add, ca.2, c.2, h.pA, h.pB]
    simp
    ring
  have ey' : ((((first q true pa xa ya).2 + (first q false pb' xb' yb').2) % q : Int) : ZMod q) = yb' - ya - (ra.bp + rb'.bp) := by
    rw [cast_emod, Int.cast_add, ca.2, c'.2, h.pA, h'.pB]
    simp
    ring
  generalize ((first q true pa xa ya).1 + (first q false pb' xb' yb').1) % (q : Int) = E1 at ex ex'
  generalize ((first q true pa xa ya).2 + (first q false pb' xb' yb').2) % (q : Int) = E2 at ey ey'
  have s := second_sum h E1
  have s' := second_sum h' E1
  have hs : second q pb E1 = second q pb' E1 := eq_of_cast q (second_bounds _ _ _) (second_bounds _ _ _) (by
    rw [ex] at s
    rw [ex'] at s'
    linear_combination s - s' + hw)
  rw [hs]
  by_cases hz : (second q pa E1 + second q pb' E1) % (q : Int) = 0
  · rw [if_pos hz, if_pos hz]
  · rw [if_neg hz, if_neg hz]
    have hcast : (((second q pa E1 + second q pb' E1) % (q : Int) : Int) : ZMod q) = ((xb' : ZMod q) - xa) * (ra.a + rb'.a) := by
      rw [cast_emod, Int.cast_add, s', ex']
      ring
    have hne : ((xb' : ZMod q) - xa) * (ra.a + rb'.a) ≠ 0 := by
      rw [← hcast]
      intro h0
      apply hz
      have := (emod_eq_zero_iff q _).2 h0
      rwa [Int.emod_emod] at this
    have hi := modInverse_spec q ((second q pa E1 + second q pb' E1) % (q : Int)) (by rw [hcast]; exact hne)
    have t := third_sum h ((second q pa E1 + second q pb' E1) % (q : Int)) E2
    have t' := third_sum h' ((second q pa E1 + second q pb' E1) % (q : Int)) E2
    congr 2
    refine eq_of_cast q (third_bounds _ _ _ _) (third_bounds _ _ _ _) ?_
    rw [hcast] at hi
    rw [ey] at t
    rw [ey'] at t'
    generalize ((modInverse q ((second q pa E1 + second q pb' E1) % (q : Int)) : Int) : ZMod q) = I at hi t t'
    have hI' : I = 1 / (((xb' : ZMod q) - xa) * (ra.a + rb'.a)) := by
      rw [eq_div_iff hne]; exact hi
    have hne0 : ((xb : ZMod q) - xa) * (ra.a + rb.a) ≠ 0 := by rw [hw]; exact hne
    have hI : I = 1 / (((xb : ZMod q) - xa) * (ra.a + rb.a)) := by rw [hI', hw]
    have ha := right_ne_zero_of_mul hne0
    have ha' := right_ne_zero_of_mul hne
    have l1 : I * ((ra.a + rb.a) * ((yb : ZMod q) - ya)) = ((yb : ZMod q) - ya) / (xb - xa) := by rw [hI]; field_simp
    have l2 : I * ((ra.a + rb'.a) * ((yb' : ZMod q) - ya)) = ((yb' : ZMod q) - ya) / (xb' - xa) := by rw [hI']; field_simp
    rw [← l1, ← l2] at hl
    linear_combination t - t' + hl

/-- Two runs of BOB with the same state and two ALICEs whose masked values agree: the messages of ALICE agree. -/
theorem alice_congr (q : Nat) [Fact q.Prime] {ra ra' rb : Rand} {pa pa' pb : Pre} (h : PreOk q ra rb pa pb) (h' : PreOk q ra' rb pa' pb)
    (xa ya xa' ya' xb yb : Int) (hx : (xb : ZMod q) - xa ≠ 0) (hx' : (xb : ZMod q) - xa' ≠ 0)
    (e1 : -(xa : ZMod q) - ra.b = -xa' - ra'.b) (e2 : -(ya : ZMod q) - ra.bp = -ya' - ra'.bp)
    (hw : ((xb : ZMod q) - xa) * (ra.a + rb.a) = ((xb : ZMod q) - xa') * (ra'.a + rb.a))
    (hl : ((yb : ZMod q) - ya) / (xb - xa) - ra.r = ((yb : ZMod q) - ya') / (xb - xa') - ra'.r) :
    (talk q pa pb xa ya xb yb).1 = (talk q pa' pb xa' ya' xb yb).1 := by
  rw [(talk_eq q pa pb xa ya xb yb).1, (talk_eq q pa' pb xa' ya' xb yb).1]
  have f := first_bounds q true pa xa ya
  have f' := first_bounds q true pa' xa' ya'
  have c := first_cast (q := q) true pa xa ya
  have c' := first_cast (q := q) true pa' xa' ya'
  have cb := first_cast (q := q) false pb xb yb
  have hb1 : (first q true pa xa ya).1 = (first q true pa' xa' ya').1 :=
    eq_of_cast q f.1 f'.1 (by rw [c.1, c'.1, h.bA, h'.bA]; simpa using e1)
  have hb2 : (first q true pa xa ya).2 = (first q true pa' xa' ya').2 :=
    eq_of_cast q f.2 f'.2 (by rw [c.2, c'.2, h.pA, h'.pA]; simpa using e2)
  rw [hb1, hb2]
  have ex : ((((first q true pa' xa' ya').1 + (first q false pb xb yb).1) % q : Int) : ZMod q) = xb - xa - (ra.b + rb.b) := by
    rw [← hb1, cast_emod, Int.cast_add, cb.1, c.1, h.bA, h.bB]
    simp
    ring
  have ex' : ((((first q true pa' xa' ya').1 + (first q false pb xb yb).1) % q : Int) : ZMod q) = xb - xa' - (ra'.b + rb.b) := by
    rw [cast_emod, Int.cast_add, cb.1, c'.1, h'.bA, h'.bB]
    simp
    ring
  have ey : ((((first q true pa' xa' ya').2 + (first q false pb xb yb).2) % q : Int) : ZMod q) = yb - ya - (ra.bp + rb.bp) := by
    rw [← hb2, cast_emod, Int.cast_add, cb.2, c.2, h.pA, h.pB]
    simp
    ring
  have ey' : ((((first q true pa' xa' ya').2 + (first q false pb xb yb).2) % q : Int) : ZMod q) = yb - ya' - (ra'.bp + rb.bp) := by
    rw [cast_emod, Int.cast_add, cb.2, c'.2, h'.pA, h'.pB]
    simp
    ring
  generalize ((first q true pa' xa' ya').1 + (first q false pb xb yb).1) % (q : Int) = E1 at ex ex'
  generalize ((first q true pa' xa' ya').2 + (first q false pb xb yb).2) % (q : Int) = E2 at ey ey'
  have s := second_sum h E1
  have s' := second_sum h' E1
  have hs : second q pa E1 = second q pa' E1 := eq_of_cast q (second_bounds _ _ _) (second_bounds _ _ _) (by
    rw [ex] at s
    rw [ex'] at s'
    linear_combination s - s' + hw)
  rw [hs]
  by_cases hz : (second q pa' E1 + second q pb E1) % (q : Int) = 0
  · rw [if_pos hz, if_pos hz]
  · rw [if_neg hz, if_neg hz]
    have hcast : (((second q pa' E1 + second q pb E1) % (q : Int) : Int) : ZMod q) = ((xb : ZMod q) - xa') * (ra'.a + rb.a) := by
      rw [cast_emod, Int.cast_add, s', ex']
      ring
    have hne : ((xb : ZMod q) - xa') * (ra'.a + rb.a) ≠ 0 := by
      rw [← hcast]
      intro h0
      apply hz
      have := (emod_eq_zero_iff q _).2 h0
      rwa [Int.emod_emod] at this
    have hi := modInverse_spec q ((second q pa' E1 + second q pb E1) % (q : Int)) (by rw [hcast]; exact hne)
    have t := third_sum h ((second q pa' E1 + second q pb E1) % (q : Int)) E2
    have t' := third_sum h' ((second q pa' E1 + second q pb E1) % (q : Int)) E2
    congr 2
    refine eq_of_cast q (third_bounds _ _ _ _) (third_bounds _ _ _ _) ?_
    rw [hcast] at hi
    rw [ey] at t
    rw [ey'] at t'
    generalize ((modInverse q ((second q pa' E1 + second q pb E1) % (q : Int)) : Int) : ZMod q) = I at hi t t'
    have hI' : I = 1 / (((xb : ZMod q) - xa') * (ra'.a + rb.a)) := by
      rw [eq_div_iff hne]; exact hi
    have hne0 : ((xb : ZMod q) - xa) * (ra.a + rb.a) ≠ 0 := by rw [hw]; exact hne
    have hI : I = 1 / (((xb : ZMod q) - xa) * (ra.a + rb.a)) := by rw [hI', hw]
    have ha := right_ne_zero_of_mul hne0
    have ha' := right_ne_zero_of_mul hne
    have l1 : I * ((ra.a + rb.a) * ((yb : ZMod q) - ya)) = ((yb : ZMod q) - ya) / (xb - xa) := by rw [hI]; field_simp
    have l2 : I * ((ra'.a + rb.a) * ((yb : ZMod q) - ya')) = ((yb : ZMod q) - ya') / (xb - xa') := by rw [hI']; field_simp
    rw [← l1, ← l2] at hl
    linear_combination t - t' + hl

theorem other_spec (q : Nat) (x y : List Nat) (o : List Int) (hx : x.length = o.length) (hy : y.length = o.length) :
    (other q x y o).length = o.length ∧ ∀ (k : Nat) (a b : Int) (u v : Nat), x[k]? = some u → y[k]? = some v →
      o[k]? = some a → (other q x y o)[k]? = some b → (a + b) % (q : Int) = (u * v : Int) % q := by
  refine ⟨by simp [other]; omega, ?_⟩
  intro k a b u v h1 h2 h3 h4
  simp only [other, List.getElem?_zipWith] at h4
  have hz : (x.zip y)[k]? = some (u, v) := by
    rw [List.getElem?_zip_eq_some]; exact ⟨h1, h2⟩
  rw [hz, h3] at h4
  simp only [Option.some.injEq] at h4
  rw [← h4, Int.add_emod, Int.emod_emod, ← Int.add_emod]
  congr 1
  ring

theorem cast_val {q : Nat} [Fact q.Prime] (x : ZMod q) : ((x.val : Nat) : ZMod q) = x := ZMod.natCast_zmod_val x

/-- **C55, what ALICE learns.**  Whatever ALICE's random numbers, OLE outputs and point, and whatever two points BOB may have, both with an x coordinate different from
ALICE's: there is a bijection of BOB's random numbers that takes the messages ALICE gets with the one point to the messages she gets with
the other.  So for uniform random numbers of BOB the messages (and whether the run stops) have the same distribution for all of his points. -/
theorem C55_alice_view (q : Nat) [Fact q.Prime] (ra : Rand) (oa : List Int) (ho : oa.length = 5) (xa ya xb yb xb' yb' : Int)
    (hx : (xb : ZMod q) ≠ xa) (hx' : (xb' : ZMod q) ≠ xa) :
    ∃ f : Res4 q ≃ Res4 q, ∀ r, ∃ l, toAlice q ra oa xa ya xb yb r = .ok l ∧ toAlice q ra oa xa ya xb' yb' (f r) = .ok l := by
  have n := sub_ne_zero.2 hx
  have n' := sub_ne_zero.2 hx'
  refine ⟨change (ra.a : ZMod q) (xb' - xb) (yb' - yb) (((xb : ZMod q) - xa) / (xb' - xa))
    (((yb' : ZMod q) - ya) / (xb' - xa) - ((yb : ZMod q) - ya) / (xb - xa)) (div_ne_zero n n'), fun r => ?_⟩
  have key : ∀ r : Res4 q, ∃ pa pb, offline q ra oa = .ok pa
      ∧ offline q (toRand r) (other q (aliceIn ra) (bobIn (toRand r)) oa) = .ok pb ∧ PreOk q ra (toRand r) pa pb := by
    intro r
    obtain ⟨o1, o2⟩ := other_spec q (aliceIn ra) (bobIn (toRand r)) oa (by simp [aliceIn, ho]) (by simp [bobIn, ho])
    exact offline_ok q ra (toRand r) oa _ ho (by rw [o1, ho]) o2
  obtain ⟨pa, pb, k1, k2, k3⟩ := key r
  obtain ⟨pa', pb', k1', k2', k3'⟩ := key (change (ra.a : ZMod q) (xb' - xb) (yb' - yb) (((xb : ZMod q) - xa) / (xb' - xa))
    (((yb' : ZMod q) - ya) / (xb' - xa) - ((yb : ZMod q) - ya) / (xb - xa)) (div_ne_zero n n') r)
  have hpa : pa' = pa := by rw [k1] at k1'; exact (Except.ok.inj k1').symm
  subst hpa
  refine ⟨(talk q pa' pb xa ya xb yb).2.1, by simp only [toAlice, k1, k2, bind, Except.bind], ?_⟩
  simp only [toAlice, k1', k2', bind, Except.bind]
  rw [bob_congr q k3 k3' xa ya xb yb xb' yb' n n' ?_ ?_ ?_ ?_]
  · simp only [toRand, change, Equiv.coe_fn_mk, cast_val]; ring
  · simp only [toRand, change, Equiv.coe_fn_mk, cast_val]; ring
  · simp only [toRand, change, Equiv.coe_fn_mk, cast_val]; field_simp; ring
  · simp only [toRand, change, Equiv.coe_fn_mk, cast_val]; ring

/-- **C55, what BOB learns.**  The same for the messages of ALICE. -/
theorem C55_bob_view (q : Nat) [Fact q.Prime] (rb : Rand) (ob : List Int) (ho : ob.length = 5) (xb yb xa ya xa' ya' : Int)
    (hx : (xa : ZMod q) ≠ xb) (hx' : (xa' : ZMod q) ≠ xb) :
    ∃ f : Res4 q ≃ Res4 q, ∀ r, ∃ l, toBob q rb ob xb yb xa ya r = .ok l ∧ toBob q rb ob xb yb xa' ya' (f r) = .ok l := by
  have n := sub_ne_zero.2 hx.symm
  have n' := sub_ne_zero.2 hx'.symm
  have key : ∀ r : Res4 q, ∃ pa pb, offline q (toRand r) (other q (aliceIn (toRand r)) (bobIn rb) ob) = .ok pa
      ∧ offline q rb ob = .ok pb ∧ PreOk q (toRand r) rb pa pb := by
    intro r
    obtain ⟨o1, o2⟩ := other_spec q (aliceIn (toRand r)) (bobIn rb) ob (by simp [aliceIn, ho]) (by simp [bobIn, ho])
    exact offline_ok q (toRand r) rb _ ob (by rw [o1, ho]) ho fun k a b x y h1 h2 h3 h4 => by
      rw [Int.add_comm]; exact o2 k b a x y h1 h2 h4 h3
  refine ⟨change (rb.a : ZMod q) (xa - xa') (ya - ya') (((xb : ZMod q) - xa) / (xb - xa'))
    (((yb : ZMod q) - ya') / (xb - xa') - ((yb : ZMod q) - ya) / (xb - xa)) (div_ne_zero n n'), fun r => ?_⟩
  obtain ⟨pa, pb, k1, k2, k3⟩ := key r
  obtain ⟨pa', pb', k1', k2', k3'⟩ := key (change (rb.a : ZMod q) (xa - xa') (ya - ya') (((xb : ZMod q) - xa) / (xb - xa'))
    (((yb : ZMod q) - ya') / (xb - xa') - ((yb : ZMod q) - ya) / (xb - xa)) (div_ne_zero n n') r)
  have hpb : pb' = pb := by rw [k2] at k2'; exact (Except.ok.inj k2').symm
  subst hpb
  refine ⟨(talk q pa pb' xa ya xb yb).1, by simp only [toBob, k1, k2, bind, Except.bind], ?_⟩
  simp only [toBob, k1', k2', bind, Except.bind]
  rw [alice_congr q k3 k3' xa ya xa' ya' xb yb n n' ?_ ?_ ?_ ?_]
  · simp only [toRand, change, Equiv.coe_fn_mk, cast_val]; ring
  · simp only [toRand, change, Equiv.coe_fn_mk, cast_val]; ring
  · simp only [toRand, change, Equiv.coe_fn_mk, cast_val]; field_simp; ring
  · simp only [toRand, change, Equiv.coe_fn_mk, cast_val]; ring

/-- **C55, equal x coordinates show.**  With the same x coordinate every run stops after the third message; otherwise only those with masks that
add to zero do.  So the hypothesis on the coordinates is needed. -/
theorem C55_stop (q : Nat) [Fact q.Prime] (ra rb : Rand) (pa pb : Pre) (h : PreOk q ra rb pa pb) (xa ya xb yb : Int) :
    (talk q pa pb xa ya xb yb).2.1.length = (if (xb : ZMod q) = xa ∨ (ra.a : ZMod q) + rb.a = 0 then 3 else 4) := by
  rw [(talk_eq q pa pb xa ya xb yb).2]
  have hw := wOpen_cast q ra rb pa pb h xa xb
  have hW : (second q pa (((first q true pa xa ya).1 + (first q false pb xb yb).1) % q)
          + second q pb (((first q true pa xa ya).1 + (first q false pb xb yb).1) % q)) % (q : Int) = wOpen q pa pb xa xb := by
    rw [Int.add_comm (first q true pa xa ya).1]
    conv_lhs => rw [Int.add_comm (first q false pb xb yb).1]
    unfold wOpen
    rw [Int.add_comm ((xb - pb.b) % (q : Int))]
    rfl
  have hiff : wOpen q pa pb xa xb = 0 ↔ ((xb : ZMod q) - xa) * (ra.a + rb.a) = 0 := by
    rw [← hw]
    unfold wOpen
    rw [emod_eq_zero_iff, cast_emod]
  rw [hW]
  by_cases hz : wOpen q pa pb xa xb = 0
  · have := mul_eq_zero.1 (hiff.1 hz)
    rw [if_pos hz, if_pos (by rwa [sub_eq_zero] at this)]
    rfl
  · have := mt hiff.2 hz
    rw [mul_eq_zero, sub_eq_zero] at this
    rw [if_neg hz, if_neg this]
    rfl

/-- **C55, one run per preparation.**  Two runs of `compute_online` after one `compute_offline` tell the differences of the coordinates. -/
theorem C55_reuse (q : Nat) (pa pb pa' : Pre) (xa ya xb yb xa' ya' xb' yb' : Int) :
    ∃ m1 m2 m1' m2' l l', (talk q pa pb xa ya xb yb).2.1 = m1 :: m2 :: l ∧ (talk q pa' pb xa' ya' xb' yb').2.1 = m1' :: m2' :: l'
      ∧ (m1 - m1') % q = (xb - xb') % q ∧ (m2 - m2') % q = (yb - yb') % q := by
  rw [(talk_eq q pa pb xa ya xb yb).2, (talk_eq q pa' pb xa' ya' xb' yb').2]
  refine ⟨_, _, _, _, _, _, rfl, rfl, ?_, ?_⟩
  · apply emod_congr
    rw [Int.cast_sub, (first_cast false pb xb yb).1, (first_cast false pb xb' yb').1]
    simp
  · apply emod_congr
    rw [Int.cast_sub, (first_cast false pb xb yb).2, (first_cast false pb xb' yb').2]
    simp

example : ((7 : Int) : ZMod 101) ≠ ((3 : Int) : ZMod 101) ∧ ((9 : Int) : ZMod 101) ≠ ((3 : Int) : ZMod 101) := by decide

/-- A run to the end, and its messages. -/
example : toAlice 101 ⟨5, 6, 7, 8⟩ [1, 2, 3, 4, 5] 3 4 7 9 (10, 11, 12, 13) = .ok [97, 98, 92, 51] := by decide +kernel

end Verif.Props.E2FView
