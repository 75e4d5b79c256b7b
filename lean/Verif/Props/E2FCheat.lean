import Verif.Model.E2FCheat
import Verif.Props.E2FView

/-! C78: what a party that does not follow the protocol learns in the point conversion. -/

namespace Verif.Props.E2FCheat
open Verif.Model Verif.Model.E2F Verif.Props Verif.Props.E2FView

/-- The coordinate as it enters the protocol: the difference of the points is shared. -/
def signed (q : Nat) (alice : Bool) (x : Int) : ZMod q := if alice then -(x : ZMod q) else x

/-- The input of the other party that the party multiplies with its `a`, in the first (`k = 0`) or second product. -/
def factor (alice : Bool) (u : List Int) (k : Nat) : Int := u.getD (2 * k + if alice then 0 else 1) 0

/-- Members of the party, whatever the other party has put into the OLE. -/
theorem pre_spec (q : Nat) (alice : Bool) (r : Rand) (u o : List Int) (hu : u.length = 5) (ho : o.length = 5) :
    ∃ p, offlineAgainst q alice r u o = .ok p ∧ (p.a : ZMod q) = r.a ∧ (p.b : ZMod q) = r.b ∧ (p.bp : ZMod q) = r.bp ∧ (p.r : ZMod q) = r.r
      ∧ (p.c : ZMod q) = r.a * r.b + factor alice u 0 * r.a + factor (!alice) u 0 * r.b - (o.getD 0 0 + o.getD 1 0)
      ∧ (p.cp : ZMod q) = r.a * r.bp + factor alice u 1 * r.a + factor (!alice) u 1 * r.bp - (o.getD 2 0 + o.getD 3 0) := by
  match u, hu with
  | [u0, u1, u2, u3, u4], _ =>
    match o, ho with
    | [o0, o1, o2, o3, o4], _ =>
      cases alice
      · refine ⟨_, rfl, ?_⟩
        simp only [Int.cast_natCast, cast_emod, Int.cast_add, Int.cast_mul, Int.cast_sub, List.getD_cons_zero, List.getD_cons_succ]
        simp [factor]
        constructor <;> ring
      · refine ⟨_, rfl, ?_⟩
        simp only [Int.cast_natCast, cast_emod, Int.cast_add, Int.cast_mul, Int.cast_sub, List.getD_cons_zero, List.getD_cons_succ]
        simp [factor]
        constructor <;> ring

/-- The coordinate the other party bets on: `-(d + u)` for the number `d` it sends in the first call of `open`, having seen the masked coordinates, and its OLE input `u`. -/
def bet (q : Nat) (alice : Bool) (u : List Int) (s : Strategy) (X Y : ZMod q) (r : Res4 q) : ZMod q :=
  -((s.d12 ((X - r.2.1).val) ((Y - r.2.2.1).val)).1 : ZMod q) - (factor alice u 0 : ZMod q)

/-- The messages of the party that follows the code. -/
def msgs (q : Nat) (alice : Bool) (u o : List Int) (s : Strategy) (x y : Int) (r : Res4 q) : Res (List Int) := do
  let p ← offlineAgainst q alice (toRand r) u o
  .ok (against q alice p x y s).1

theorem val_of_cast (q : Nat) [Fact q.Prime] {m : Int} (hm : m % q = m) {z : ZMod q} (h : (m : ZMod q) = z) : m = (z.val : Int) := by
  have : ((z.val : Int) : ZMod q) = z := by rw [Int.cast_natCast]; exact ZMod.natCast_zmod_val z
  refine eq_of_cast q hm ?_ (h.trans this.symm)
  have hlt : (z.val : Int) < q := by exact_mod_cast ZMod.val_lt z
  exact Int.emod_eq_of_lt (by positivity) hlt

/-- The third message as a residue. -/
def third' (q : Nat) (v t k : ZMod q) (s : Strategy) (X B1 B2 : ZMod q) (a b : ZMod q) : ZMod q :=
  a * (X + ((s.d12 B1.val B2.val).1 : ZMod q) + v) + t * b - k

/-- The opened denominator when the third message is `M3`. -/
def denom (q : Nat) (s : Strategy) (B1 B2 M3 : ZMod q) : Int := ((M3.val : Int) + s.d3 B1.val B2.val M3.val) % q

/-- The last message as a residue. -/
def last' (q : Nat) (v' t' k' : ZMod q) (s : Strategy) (Y B1 B2 M3 : ZMod q) (a bp r : ZMod q) : ZMod q :=
  (modInverse q (denom q s B1 B2 M3) : ZMod q) * (a * (Y + ((s.d12 B1.val B2.val).2 : ZMod q) + v') + t' * bp - k') - r

theorem against_msgs (q : Nat) [Fact q.Prime] (alice : Bool) (p : Pre) (x y : Int) (s : Strategy) (a b bp r v t k v' t' k' : ZMod q)
    (ha : (p.a : ZMod q) = a) (hb : (p.b : ZMod q) = b) (hbp : (p.bp : ZMod q) = bp) (hr : (p.r : ZMod q) = r)
    (hc : (p.c : ZMod q) = a * b + v * a + t * b - k) (hcp : (p.cp : ZMod q) = a * bp + v' * a + t' * bp - k') :
    let B1 := signed q alice x - b
    let B2 := signed q alice y - bp
    let M3 := third' q v t k s (signed q alice x) B1 B2 a b
    (against q alice p x y s).1 = [(B1.val : Int), (B2.val : Int), (M3.val : Int)]
      ++ if denom q s B1 B2 M3 = 0 then [] else [((last' q v' t' k' s (signed q alice y) B1 B2 M3 a bp r).val : Int)] := by
  intro B1 B2 M3
  have f := first_bounds q alice p x y
  have c := first_cast (q := q) alice p x y
  have h1 : (first q alice p x y).1 = (B1.val : Int) := val_of_cast q f.1 (by rw [c.1, hb]; rfl)
  have h2 : (first q alice p x y).2 = (B2.val : Int) := val_of_cast q f.2 (by rw [c.2, hbp]; rfl)
  have n1 : (((B1.val : Int) : Int) : ZMod q) = B1 := by rw [Int.cast_natCast]; exact ZMod.natCast_zmod_val B1
  have n2 : (((B2.val : Int) : Int) : ZMod q) = B2 := by rw [Int.cast_natCast]; exact ZMod.natCast_zmod_val B2
  have h3 : second q p (((B1.val : Int) + (s.d12 B1.val B2.val).1) % q) = (M3.val : Int) := by
    refine val_of_cast q (second_bounds _ _ _) ?_
    simp only [second, cast_emod, Int.cast_add, Int.cast_mul, n1, ha, hc]
    show (signed q alice x - b + _) * a + _ = _ * (signed q alice x + _ + v) + _ - _
    ring
  have h4 : ∀ w : Int, w = denom q s B1 B2 M3 → third q p w (((B2.val : Int) + (s.d12 B1.val B2.val).2) % q)
      = ((last' q v' t' k' s (signed q alice y) B1 B2 M3 a bp r).val : Int) := by
    rintro w rfl
    refine val_of_cast q (third_bounds _ _ _ _) ?_
    simp only [third, cast_emod, Int.cast_add, Int.cast_sub, Int.cast_mul, n2, ha, hcp, hr]
    show _ * ((signed q alice y - bp + _) * a + _) - r = _ * (_ * (signed q alice y + _ + v') + _ - _) - r
    ring
  unfold against
  simp only [h1, h2, h3]
  have hd : ((M3.val : Int) + s.d3 B1.val B2.val M3.val) % (q : Int) = denom q s B1 B2 M3 := rfl
  rw [hd]
  by_cases hz : denom q s B1 B2 M3 = 0
  · rw [if_pos hz, if_pos hz]; rfl
  · rw [if_neg hz, if_neg hz, h4 _ rfl]; rfl

/-- **C78 (privacy against a party that does not follow the protocol).**  Whatever the other party has put into the OLE and got out of it, and whatever it sends in the
second phase, each message after having seen those of the party that follows the code: for any two points of the latter there is a bijection of its random numbers that
keeps all messages it sends (and whether it stops), except where the other party has guessed one of the two x coordinates. -/
theorem C78_view (q : Nat) [Fact q.Prime] (alice : Bool) (u o : List Int) (hu : u.length = 5) (ho : o.length = 5) (s : Strategy) (x y x' y' : Int) :
    ∃ f : Res4 q ≃ Res4 q, ∀ r,
      bet q alice u s (signed q alice x') (signed q alice y') (f r) = bet q alice u s (signed q alice x) (signed q alice y) r
      ∧ ∃ l l', msgs q alice u o s x y r = .ok l ∧ msgs q alice u o s x' y' (f r) = .ok l' ∧ l'.take 2 = l.take 2
        ∧ (bet q alice u s (signed q alice x) (signed q alice y) r ≠ signed q alice x →
          bet q alice u s (signed q alice x) (signed q alice y) r ≠ signed q alice x' → l' = l) := by
  classical
  let X := signed q alice x
  let Y := signed q alice y
  let X' := signed q alice x'
  let Y' := signed q alice y'
  let v : ZMod q := (factor alice u 0 : ZMod q)
  let t : ZMod q := (factor (!alice) u 0 : ZMod q)
  let k : ZMod q := ((o.getD 0 0 : Int) : ZMod q) + ((o.getD 1 0 : Int) : ZMod q)
  let v' : ZMod q := (factor alice u 1 : ZMod q)
  let t' : ZMod q := (factor (!alice) u 1 : ZMod q)
  let k' : ZMod q := ((o.getD 2 0 : Int) : ZMod q) + ((o.getD 3 0 : Int) : ZMod q)
  let d : ZMod q → ZMod q → Int × Int := fun B1 B2 => s.d12 B1.val B2.val
  let D : ZMod q → ZMod q → ZMod q := fun B1 B2 => X + ((d B1 B2).1 : ZMod q) + v
  let D' : ZMod q → ZMod q → ZMod q := fun B1 B2 => X' + ((d B1 B2).1 : ZMod q) + v
  let na : ZMod q → ZMod q → ZMod q → ZMod q := fun B1 B2 a =>
    if D B1 B2 ≠ 0 ∧ D' B1 B2 ≠ 0 then (a * D B1 B2 + t * (X - X')) / D' B1 B2 else a
  let sh : ZMod q → ZMod q → ZMod q → ZMod q → ZMod q → ZMod q := fun B1 B2 a b bp =>
    (modInverse q (denom q s B1 B2 (third' q v t k s X B1 B2 a b)) : ZMod q)
      * ((na B1 B2 a * (Y' + ((d B1 B2).2 : ZMod q) + v') + t' * (bp + (Y' - Y))) - (a * (Y + ((d B1 B2).2 : ZMod q) + v') + t' * bp))
  let g : Res4 q → Res4 q := fun r =>
    (na (X - r.2.1) (Y - r.2.2.1) r.1, r.2.1 + (X' - X), r.2.2.1 + (Y' - Y), r.2.2.2 + sh (X - r.2.1) (Y - r.2.2.1) r.1 r.2.1 r.2.2.1)
  have inj : Function.Injective g := by
    rintro ⟨a, b, bp, r⟩ ⟨a2, b2, bp2, r2⟩ h
    simp only [g, Prod.mk.injEq] at h
    obtain ⟨h1, h2, h3, h4⟩ := h
    have h2 : b = b2 := by linear_combination h2
    have h3 : bp = bp2 := by linear_combination h3
    subst h2 h3
    have h1 : a = a2 := by
      simp only [na] at h1
      split at h1
      · rename_i hd
        have := (div_left_inj' hd.2).1 h1
        exact mul_right_cancel₀ hd.1 (by linear_combination this)
      · exact h1
    subst h1
    have h4 : r = r2 := by linear_combination h4
    rw [h4]
  let f : Res4 q ≃ Res4 q := Equiv.ofBijective g (Finite.injective_iff_bijective.1 inj)
  refine ⟨f, ?_⟩
  rintro ⟨a, b, bp, r⟩
  have hf : f (a, b, bp, r) = (na (X - b) (Y - bp) a, b + (X' - X), bp + (Y' - Y), r + sh (X - b) (Y - bp) a b bp) := rfl
  have e1 : X' - (b + (X' - X)) = X - b := by ring
  have e2 : Y' - (bp + (Y' - Y)) = Y - bp := by ring
  have e1' : signed q alice x' - (b + (X' - X)) = X - b := e1
  have e2' : signed q alice y' - (bp + (Y' - Y)) = Y - bp := e2
  rw [hf]
  refine ⟨?_, ?_⟩
  · simp only [bet, e1', e2']
    rfl
  · obtain ⟨p, hp, pa, pb, pbp, pr, pc, pcp⟩ := pre_spec q alice (toRand (a, b, bp, r)) u o hu ho
    obtain ⟨p', hp', pa', pb', pbp', pr', pc', pcp'⟩ := pre_spec q alice
      (toRand (na (X - b) (Y - bp) a, b + (X' - X), bp + (Y' - Y), r + sh (X - b) (Y - bp) a b bp)) u o hu ho
    simp only [toRand, cast_val] at pa pb pbp pr pc pcp pa' pb' pbp' pr' pc' pcp'
    have m := against_msgs q alice p x y s a b bp r v t k v' t' k' pa pb pbp pr pc pcp
    have m' := against_msgs q alice p' x' y' s _ _ _ _ v t k v' t' k' pa' pb' pbp' pr' pc' pcp'
    simp only [e1', e2'] at m'
    refine ⟨(against q alice p x y s).1, (against q alice p' x' y' s).1, by simp only [msgs, hp, bind, Except.bind], by simp only [msgs, hp', bind, Except.bind], ?_, ?_⟩
    · rw [m, m']; rfl
    intro hg hg'
    have hD : D (X - b) (Y - bp) ≠ 0 := by
      intro h0
      apply hg
      have h0 : X + ((s.d12 ((X - b).val) ((Y - bp).val)).1 : ZMod q) + v = 0 := h0
      show -((s.d12 ((X - b).val) ((Y - bp).val)).1 : ZMod q) - v = X
      linear_combination -h0
    have hD' : D' (X - b) (Y - bp) ≠ 0 := by
      intro h0
      apply hg'
      have h0 : X' + ((s.d12 ((X - b).val) ((Y - bp).val)).1 : ZMod q) + v = 0 := h0
      show -((s.d12 ((X - b).val) ((Y - bp).val)).1 : ZMod q) - v = X'
      linear_combination -h0
    have hna : na (X - b) (Y - bp) a = (a * D (X - b) (Y - bp) + t * (X - X')) / D' (X - b) (Y - bp) := if_pos ⟨hD, hD'⟩
    rw [m, m']
    have t3 : third' q v t k s (signed q alice x') (X - b) (Y - bp) (na (X - b) (Y - bp) a) (b + (X' - X))
        = third' q v t k s (signed q alice x) (signed q alice x - b) (signed q alice y - bp) a b := by
      show na (X - b) (Y - bp) a * D' (X - b) (Y - bp) + t * (b + (X' - X)) - k = a * D (X - b) (Y - bp) + t * b - k
      rw [hna, div_mul_cancel₀ _ hD']
      ring
    rw [t3]
    show [_, _, _] ++ _ = [_, _, _] ++ _
    have t4 : last' q v' t' k' s (signed q alice y') (X - b) (Y - bp) (third' q v t k s (signed q alice x) (signed q alice x - b) (signed q alice y - bp) a b)
          (na (X - b) (Y - bp) a) (bp + (Y' - Y)) (r + sh (X - b) (Y - bp) a b bp)
        = last' q v' t' k' s (signed q alice y) (signed q alice x - b) (signed q alice y - bp)
          (third' q v t k s (signed q alice x) (signed q alice x - b) (signed q alice y - bp) a b) a bp r := by
      simp only [last', sh, X, Y, Y', d]
      ring
    rw [t4]

/-- **C78 (a right bet shows).**  If the other party has bet on the coordinate, the third message is a number it can compute from the first one, its OLE inputs and
outputs, whatever the random number `a`. -/
theorem C78_hit (q : Nat) [Fact q.Prime] (alice : Bool) (u o : List Int) (hu : u.length = 5) (ho : o.length = 5) (s : Strategy) (x y : Int) (r : Res4 q)
    (h : bet q alice u s (signed q alice x) (signed q alice y) r = signed q alice x) :
    ∃ m1 m2 m3 l, msgs q alice u o s x y r = .ok (m1 :: m2 :: m3 :: l)
      ∧ (m3 : ZMod q) = factor (!alice) u 0 * (bet q alice u s (signed q alice x) (signed q alice y) r - m1) - (o.getD 0 0 + o.getD 1 0 : Int) := by
  obtain ⟨p, hp, pa, pb, pbp, pr, pc, pcp⟩ := pre_spec q alice (toRand r) u o hu ho
  simp only [toRand, cast_val] at pa pb pbp pr pc pcp
  have m := against_msgs q alice p x y s r.1 r.2.1 r.2.2.1 r.2.2.2 _ _ _ _ _ _ pa pb pbp pr pc pcp
  refine ⟨_, _, _, _, by simp only [msgs, hp, bind, Except.bind]; rw [m]; rfl, ?_⟩
  rw [h]
  have hd : signed q alice x + ((s.d12 ((signed q alice x - r.2.1).val) ((signed q alice y - r.2.2.1).val)).1 : ZMod q) + (factor alice u 0 : ZMod q) = 0 := by
    unfold bet at h
    linear_combination -h
  simp only [Int.cast_natCast, ZMod.natCast_zmod_val, third', hd]
  push_cast
  ring

/-- **C78 (how often a bet is right).**  For a uniform coordinate and uniform random numbers any bet is right once in `q` times. -/
theorem C78_bets (q : Nat) [hp : Fact q.Prime] (alice : Bool) (u : List Int) (s : Strategy) (Y : ZMod q) :
    Nat.card {z : ZMod q × Res4 q // bet q alice u s z.1 Y z.2 = z.1} * q = Nat.card (ZMod q × Res4 q) := by
  let g : ZMod q → ZMod q → ZMod q := fun B1 B2 => -((s.d12 B1.val B2.val).1 : ZMod q) - (factor alice u 0 : ZMod q)
  have e : {z : ZMod q × Res4 q // bet q alice u s z.1 Y z.2 = z.1} ≃ Res4 q :=
    { toFun := fun z => (z.1.2.1, z.1.1 - z.1.2.2.1, Y - z.1.2.2.2.1, z.1.2.2.2.2)
      invFun := fun r => ⟨(g r.2.1 r.2.2.1, r.1, g r.2.1 r.2.2.1 - r.2.1, Y - r.2.2.1, r.2.2.2), by
        show -((s.d12 ((g r.2.1 r.2.2.1 - (g r.2.1 r.2.2.1 - r.2.1)).val) ((Y - (Y - r.2.2.1)).val)).1 : ZMod q) - _ = _
        rw [sub_sub_cancel, sub_sub_cancel]⟩
      left_inv := by
        rintro ⟨⟨X, a, b, bp, r⟩, h⟩
        have h : g (X - b) (Y - bp) = X := h
        simp only [h, sub_sub_cancel]
      right_inv := by
        rintro ⟨a, b, bp, r⟩
        simp only [sub_sub_cancel] }
  rw [Nat.card_congr e, Nat.card_prod (ZMod q) (Res4 q), Nat.card_zmod, Nat.mul_comm]

/-- **C78 (the strategy of the code).**  Against the party that follows the code the run is the one of `talk`. -/
theorem C78_honest (q : Nat) (pa pb : Pre) (xa ya xb yb : Int) :
    (against q false pb xb yb (Strategy.honest q true pa xa ya)).1 = (talk q pa pb xa ya xb yb).2.1
    ∧ (against q true pa xa ya (Strategy.honest q false pb xb yb)).1 = (talk q pa pb xa ya xb yb).1
    ∧ (talk q pa pb xa ya xb yb).2.2 = (do
        let a ← (against q true pa xa ya (Strategy.honest q false pb xb yb)).2
        let b ← (against q false pb xb yb (Strategy.honest q true pa xa ya)).2
        .ok (a, b)) := by
  have h1 : ∀ a b : Int, (a + b) % (q : Int) = (b + a) % q := fun a b => by rw [Int.add_comm]
  have e1 := (h1 (second q pb (((first q false pb xb yb).1 + (first q true pa xa ya).1) % q)) (second q pa (((first q true pa xa ya).1 + (first q false pb xb yb).1) % q)))
  unfold talk against Strategy.honest
  dsimp only
  rw [e1]
  by_cases hz : (second q pa (((first q true pa xa ya).1 + (first q false pb xb yb).1) % q) + second q pb (((first q false pb xb yb).1 + (first q true pa xa ya).1) % q)) % (q : Int) = 0
  · rw [if_pos hz, if_pos hz, if_pos (Or.inl hz)]
    exact ⟨rfl, rfl, rfl⟩
  · rw [if_neg hz, if_neg hz, if_neg (by rintro (h | h) <;> exact hz h)]
    exact ⟨rfl, rfl, rfl⟩

/-- The other party always sends zeros and has put 5, 6, 7, 8, 9 into the OLE: it bets on 5.  With the coordinate 20 it is wrong. -/
example : msgs 101 true [5, 6, 7, 8, 9] [1, 2, 3, 4, 5] ⟨fun _ _ => (0, 0), fun _ _ _ => 0, fun _ _ _ _ => 0⟩ 20 30 (11, 12, 13, 14) = .ok [69, 58, 5, 76]
    ∧ bet 101 true [5, 6, 7, 8, 9] ⟨fun _ _ => (0, 0), fun _ _ _ => 0, fun _ _ _ _ => 0⟩ (signed 101 true 20) (signed 101 true 30) (11, 12, 13, 14) ≠ signed 101 true 20 := by
  decide +kernel

/-- With the coordinate 5 it is right: the third message is 69 for every `a`. -/
example : msgs 101 true [5, 6, 7, 8, 9] [1, 2, 3, 4, 5] ⟨fun _ _ => (0, 0), fun _ _ _ => 0, fun _ _ _ _ => 0⟩ 5 30 (11, 12, 13, 14) = .ok [84, 58, 69, 54]
    ∧ msgs 101 true [5, 6, 7, 8, 9] [1, 2, 3, 4, 5] ⟨fun _ _ => (0, 0), fun _ _ _ => 0, fun _ _ _ _ => 0⟩ 5 30 (12, 12, 13, 14) = .ok [84, 58, 69, 20]
    ∧ bet 101 true [5, 6, 7, 8, 9] ⟨fun _ _ => (0, 0), fun _ _ _ => 0, fun _ _ _ _ => 0⟩ (signed 101 true 5) (signed 101 true 30) (11, 12, 13, 14) = signed 101 true 5 := by
  decide +kernel

end Verif.Props.E2FCheat
