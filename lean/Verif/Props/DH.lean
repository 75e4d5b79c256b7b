import Verif.Model.DH
import Verif.Props.E2F

/-! C41: the joint key exchange is plain Diffie-Hellman. -/

namespace Verif.Props
open Verif.Model Verif.Model.DH WeierstrassCurve

theorem be_length (len n : Nat) : (be len n).length = len := by
  induction len generalizing n with
  | zero => rfl
  | succ k ih => simp [be, ih]

theorem unbe_snoc (l : List Byte) (b : Byte) : unbe (l ++ [b]) = 256 * unbe l + b.toNat := by
  simp [unbe, List.foldl_append]

theorem unbe_be (len n : Nat) (h : n < 256 ^ len) : unbe (be len n) = n := by
  induction len generalizing n with
  | zero => simp at h; subst h; rfl
  | succ k ih =>
    rw [be, unbe_snoc, ih _ (Nat.div_lt_of_lt_mul (by rw [Nat.pow_succ] at h; omega))]
    simp only [BitVec.toNat_ofNat]
    omega

variable {q : Nat} [hp : Fact q.Prime]

omit hp in
theorem point2oct_length (C : Group q) (P : C.Pt) (h : P ≠ 0) : (point2oct C P).length = 65 := by
  cases P with
  | zero => exact absurd rfl h
  | some x y hh => simp [point2oct, be_length]

theorem oct_roundtrip (C : Group q) (hq : q ≤ 2 ^ 256) (P : C.Pt) (h : P ≠ 0) :
    oct2point C (point2oct C P) = some P := by
  cases P with
  | zero => exact absurd rfl h
  | some x y hh =>
    have hx : x.val < 256 ^ 32 := by
      have := ZMod.val_lt x
      have e : (256 : Nat) ^ 32 = 2 ^ 256 := by norm_num
      omega
    have hy : y.val < 256 ^ 32 := by
      have := ZMod.val_lt y
      have e : (256 : Nat) ^ 32 = 2 ^ 256 := by norm_num
      omega
    have t1 : (be 32 x.val ++ be 32 y.val).take 32 = be 32 x.val := by
      rw [List.take_append_of_le_length (by rw [be_length])]
      rw [List.take_of_length_le (by rw [be_length])]
    have t2 : (be 32 x.val ++ be 32 y.val).drop 32 = be 32 y.val := by
      rw [List.drop_append_of_le_length (by rw [be_length]), List.drop_of_length_le (by rw [be_length]), List.nil_append]
    simp only [point2oct, oct2point, t1, t2, unbe_be _ _ hx, unbe_be _ _ hy, ZMod.val_lt, true_and, true_or, if_true,
      ZMod.natCast_zmod_val]
    rw [dif_pos hh]

/-- **C41, first part.**  For every curve of at most 256 bits, all scalars with `t_a G ≠ 0` and every server point,
the client reads exactly the message of the other party, keeps `T_a`, sends `(t_a+t_b)G`, and the two points the parties
hold add to `(t_a+t_b)T_s`. -/
theorem C41_public_key (C : Group q) (hq : q ≤ 2 ^ 256) (G Ts : C.Pt) (ta tb : Nat) (h : ta • G ≠ 0) (rest : List Byte) :
    ∃ Tc Vb, clientVB C G tb ((primusVA C G ta Ts).1 ++ rest) Ts = .ok (ta • G, Tc, Vb, rest)
      ∧ Tc = (ta + tb) • G ∧ (primusVA C G ta Ts).2 + Vb = (ta + tb) • Ts := by
  refine ⟨ta • G + tb • G, tb • Ts, ?_, (add_smul _ _ _).symm, (add_smul _ _ _).symm⟩
  have hl := point2oct_length C _ h
  unfold clientVB primusVA
  simp only
  rw [if_neg (by rw [List.length_append, hl]; omega), List.take_append_of_le_length (by rw [hl]),
    List.take_of_length_le (by rw [hl]), oct_roundtrip C hq _ h, List.drop_append_of_le_length (by rw [hl]),
    List.drop_of_length_le (by rw [hl]), List.nil_append]

/-- With `t_a G = 0` (the scalar zero, which `BN_rand_range` can return) one byte is sent and the client waits. -/
theorem C41_zero_scalar (C : Group q) (G Ts : C.Pt) (ta tb : Nat) (h : ta • G = 0) :
    (primusVA C G ta Ts).1 = [0]
      ∧ clientVB C G tb (primusVA C G ta Ts).1 Ts = .error (.error "recv_data: waiting for 65 bytes") := by
  have : (primusVA C G ta Ts).1 = [0] := by
    unfold primusVA
    rw [h]; rfl
  exact ⟨this, by rw [this]; rfl⟩

/-- Whatever the peer sends, the client goes on only with a point of the curve, not at infinity, and its own
contribution is in the key it sends. -/
theorem C41_client (C : Group q) (G Ts : C.Pt) (tb : Nat) (net : List Byte) :
    (∃ e, clientVB C G tb net Ts = .error (.error e)) ∨
    ∃ Ta, Ta ≠ 0 ∧ clientVB C G tb net Ts = .ok (Ta, Ta + tb • G, tb • Ts, net.drop 65) ∧ 65 ≤ net.length := by
  unfold clientVB
  by_cases hl : net.length < 65
  · exact Or.inl ⟨_, by rw [if_pos hl]⟩
  · rw [if_neg hl]
    cases h : oct2point C (net.take 65) with
    | none => exact Or.inl ⟨_, rfl⟩
    | some Ta =>
      refine Or.inr ⟨Ta, ?_, rfl, by omega⟩
      rintro rfl
      unfold oct2point at h
      split at h
      · exact absurd h (by simp)
      · simp only at h
        split at h
        · split at h
          · injection h with h
            exact absurd h (Affine.Point.some_ne_zero _)
          · exact absurd h (by simp)
        · exact absurd h (by simp)

theorem unbe_eq (l : List Byte) : unbe l = Nat.ofDigits 256 (l.reverse.map BitVec.toNat) := by
  induction l using List.reverseRecOn with
  | nil => rfl
  | append_singleton l b ih =>
    rw [unbe_snoc, ih, List.reverse_append, List.reverse_singleton, List.singleton_append, List.map_cons, Nat.ofDigits_cons]
    omega

/-- **C41 (malformed points).**  What the client accepts has the uncompressed or hybrid form of SEC 1 with coordinates below `q` and the right
parity; the point has these coordinates. -/
theorem C41_accepted_form (C : Group q) (G Ts : C.Pt) (tb : Nat) (net rest : List Byte) (Ta Tc Vb : C.Pt)
    (h : clientVB C G tb net Ts = .ok (Ta, Tc, Vb, rest)) :
    ∃ (f : Byte) (xs ys : List Byte), net = f :: (xs ++ ys ++ rest) ∧ xs.length = 32 ∧ ys.length = 32
      ∧ (let x := Nat.ofDigits 256 (xs.reverse.map BitVec.toNat)
         let y := Nat.ofDigits 256 (ys.reverse.map BitVec.toNat)
         x < q ∧ y < q ∧ (f = 4 ∨ (f = 6 ∧ y % 2 = 0) ∨ (f = 7 ∧ y % 2 = 1))
          ∧ ∃ h, Ta = .some (x : ZMod q) (y : ZMod q) h) := by
  unfold clientVB at h
  split at h
  · exact absurd h (by simp)
  · rename_i hl
    cases ho : oct2point C (net.take 65) with
    | none => rw [ho] at h; exact absurd h (by simp)
    | some P =>
      rw [ho] at h
      simp only [Except.ok.injEq, Prod.mk.injEq] at h
      obtain ⟨rfl, _, _, rfl⟩ := h
      cases net with
      | nil => simp at hl
      | cons f net =>
        rw [List.take_succ_cons, oct2point] at ho
        split at ho
        · rename_i hc
          split at ho
          · rename_i hns
            injection ho with ho
            refine ⟨f, (net.take 64).take 32, (net.take 64).drop 32, ?_, ?_, ?_, ?_⟩
            · rw [List.take_append_drop, List.drop_succ_cons, List.take_append_drop]
            · simp at hl ⊢; omega
            · simp at hl ⊢; omega
            · simp only [← unbe_eq]
              exact ⟨hc.1, hc.2.1, hc.2.2, hns, ho.symm⟩
          · exact absurd ho (by simp)
        · exact absurd ho (by simp)

/-- The x coordinate of a point. -/
def xCoord (C : Group q) : C.Pt → Option (ZMod q)
  | .zero => none
  | .some x _ _ => some x

theorem val_cast (x : ZMod q) : ((x.val : Int) : ZMod q) = x := by
  rw [Int.cast_natCast, ZMod.natCast_zmod_val]

/-- **C41, second part.**  For any two points with different x coordinates, any randomness, any hash and any correlated
OT, unless the masks add to zero, the shares add modulo `q` to the x coordinate of the sum of the points. -/
theorem C41_pms (ccrh : Block → Block) (C : Group q) (delta : Block) (K : Nat → Block) (s : Bool) (ra rb : E2F.Rand)
    (Va Vb : C.Pt) (x x' : ZMod q) (hx : xCoord C Va = some x) (hx' : xCoord C Vb = some x') (hne : x ≠ x')
    (hm : (ra.a : ZMod q) + rb.a ≠ 0) :
    ∃ oa ob, pms ccrh C delta K s ra rb Va Vb = .ok (oa, ob) ∧ 0 ≤ oa ∧ oa < q ∧ 0 ≤ ob ∧ ob < q
      ∧ xCoord C (Va + Vb) = some ((oa + ob : Int) : ZMod q) := by
  cases Va with
  | zero => exact absurd hx (by simp [xCoord])
  | some x1 y1 h1 =>
    cases Vb with
    | zero => exact absurd hx' (by simp [xCoord])
    | some x2 y2 h2 =>
      simp only [xCoord, Option.some.injEq] at hx hx'
      subst hx hx'
      have hq : q ≤ 2 ^ q.size := (Nat.lt_size_self q).le
      rcases C23_e2f ccrh q q.size hq delta K s ra rb (x2.val) (y2.val) (x1.val) (y1.val) with ⟨h, _⟩ | ⟨_, oa, ob, e, b1, b2, b3, b4, hs⟩
      · rw [val_cast, val_cast] at h
        exact absurd h (mul_ne_zero (sub_ne_zero.mpr hne) hm)
      · refine ⟨oa, ob, e, b1, b2, b3, b4, ?_⟩
        rw [hs]
        simp only [val_cast]
        obtain ⟨y, hh, e2⟩ := C23_group (ZMod q) C.a C.b h2 h1 (Ne.symm hne)
        rw [add_comm, e2]; rfl

/-- Points with the same x coordinate, or masks adding to zero, are refused. -/
theorem C41_pms_refused (ccrh : Block → Block) (C : Group q) (delta : Block) (K : Nat → Block) (s : Bool) (ra rb : E2F.Rand)
    (Va Vb : C.Pt) (h : xCoord C Va = xCoord C Vb ∨ (ra.a : ZMod q) + rb.a = 0) :
    pms ccrh C delta K s ra rb Va Vb = .error (.error "w is zero, invalid!") := by
  have hq : q ≤ 2 ^ q.size := (Nat.lt_size_self q).le
  refine C23_refused ccrh q q.size hq delta K s ra rb _ _ _ _ ?_
  rcases h with h | h
  · left
    cases Va <;> cases Vb <;> simp_all [xCoord, affine]
  · exact Or.inr h

/-- The defect of the ignored return value: a share that is the point at infinity (`t_b = 0`) is taken for the pair
`(0,0)`, and the parties go on with the slope formula for it instead of the x coordinate of the secret. -/
theorem C41_infinity_unchecked (ccrh : Block → Block) (C : Group q) (delta : Block) (K : Nat → Block) (s : Bool)
    (ra rb : E2F.Rand) (x y : ZMod q) (h : C.W.Nonsingular x y) (hx : x ≠ 0) (hm : (ra.a : ZMod q) + rb.a ≠ 0) :
    ∃ oa ob, pms ccrh C delta K s ra rb (.some x y h) 0 = .ok (oa, ob)
      ∧ ((oa + ob : Int) : ZMod q) = (y / x) ^ 2 - x := by
  have hq : q ≤ 2 ^ q.size := (Nat.lt_size_self q).le
  rcases C23_e2f ccrh q q.size hq delta K s ra rb 0 0 (x.val) (y.val) with ⟨h, _⟩ | ⟨_, oa, ob, e, b1, b2, b3, b4, hs⟩
  · rw [val_cast, Int.cast_zero, sub_zero] at h
    exact absurd h (mul_ne_zero hx hm)
  · refine ⟨oa, ob, e, ?_⟩
    rw [hs]
    simp only [val_cast, sumX, Int.cast_zero]
    ring

/-- **C41, third part.**  The revealed scalar is accepted exactly when it matches the first message, and then, for every
server point whose order divides the order of the group, the number ALICE recomputes is the x coordinate of
`(t_a+t_b)T_s`. -/
theorem C41_reveal (C : Group q) (G Ts : C.Pt) (order ta tb t : Nat) (old : Int) (ho : addOrderOf G = order) (hs : order • Ts = 0) :
    (t • G ≠ ta • G → revealPms C G order (ta • G) tb t Ts old = .error (.error "Ta is not consistent!"))
    ∧ (t • G = ta • G → revealPms C G order (ta • G) tb t Ts old
        = .ok (match xCoord C ((ta + tb) • Ts) with | none => old | some x => (x.val : Int))) := by
  constructor
  · intro h
    unfold revealPms
    rw [if_pos h]
  · intro h
    have hm : t ≡ ta [MOD order] := by
      rw [← ho]
      exact (nsmul_eq_nsmul_iff_modEq).mp h
    have e : ((t + tb) % order) • Ts = (ta + tb) • Ts := by
      have h1 : ∀ n : Nat, (n % order) • Ts = n • Ts := by
        intro n
        conv_rhs => rw [← Nat.mod_add_div n order]
        rw [add_smul, mul_nsmul, hs, nsmul_zero, add_zero]
      rw [h1, ← h1 (ta + tb), ← h1 (t + tb)]
      congr 1
      exact Nat.ModEq.add_right tb hm
    unfold revealPms
    rw [if_neg (by simpa using h), e]
    cases (ta + tb) • Ts <;> rfl

/-- **C41.**  The whole exchange: the parties' shares add modulo `q` to the number ALICE recomputes after the revealing. -/
theorem C41_end_to_end (ccrh : Block → Block) (C : Group q) (hq : q ≤ 2 ^ 256) (G Ts : C.Pt) (order ta tb : Nat)
    (ho : addOrderOf G = order) (hs : order • Ts = 0) (delta : Block) (K : Nat → Block) (s : Bool)
    (ra rb : E2F.Rand) (h0 : ta • G ≠ 0) (x x' : ZMod q) (hx : xCoord C (ta • Ts) = some x)
    (hx' : xCoord C (tb • Ts) = some x') (hne : x ≠ x') (hm : (ra.a : ZMod q) + rb.a ≠ 0) (rest : List Byte) :
    ∃ Tc Vb oa ob z, clientVB C G tb ((primusVA C G ta Ts).1 ++ rest) Ts = .ok (ta • G, Tc, Vb, rest)
      ∧ Tc = (ta + tb) • G
      ∧ pms ccrh C delta K s ra rb (primusVA C G ta Ts).2 Vb = .ok (oa, ob)
      ∧ revealPms C G order (ta • G) tb ta Ts 0 = .ok z
      ∧ xCoord C ((ta + tb) • Ts) = some (z : ZMod q)
      ∧ (oa + ob) % q = z ∧ 0 ≤ z ∧ z < q := by
  obtain ⟨oa, ob, e1, b1, b2, b3, b4, e2⟩ := C41_pms ccrh C delta K s ra rb (ta • Ts) (tb • Ts) x x' hx hx' hne hm
  have hcl : clientVB C G tb ((primusVA C G ta Ts).1 ++ rest) Ts = .ok (ta • G, ta • G + tb • G, tb • Ts, rest) := by
    obtain ⟨Tc, Vb, e, e3, e4⟩ := C41_public_key C hq G Ts ta tb h0 rest
    have e5 : Vb = tb • Ts := by
      have e4' : ta • Ts + Vb = (ta + tb) • Ts := e4
      rw [add_smul] at e4'
      exact add_left_cancel e4'
    rw [e, e3, e5, add_smul]
  rw [← add_smul] at e2
  have hr := (C41_reveal C G Ts order ta tb ta 0 ho hs).2 rfl
  rw [e2] at hr
  have hqpos : (0 : Int) < q := by exact_mod_cast hp.out.pos
  have hv : ((((oa + ob : Int) : ZMod q).val : Nat) : Int) = (oa + ob) % q := ZMod.val_intCast _
  refine ⟨_, _, oa, ob, (oa + ob) % q, hcl, (add_smul _ _ _).symm, e1, ?_, ?_, rfl, Int.emod_nonneg _ hqpos.ne', Int.emod_lt_of_pos _ hqpos⟩
  · rw [hr]
    simp only [hv]
  · rw [e2, cast_emod]

/-- With the scalars kept in the objects (the two functions without a scalar argument) the later `reveal_pms` gives the plain secret for every pair of objects, used before or not. -/
theorem C41_object (C : Group q) (hq : q ≤ 2 ^ 256) (G Ts : C.Pt) (order ta tb : Nat) (ho : addOrderOf G = order) (hs : order • Ts = 0) (h0 : ta • G ≠ 0)
    (b a : Obj C) (old : Int) (rest : List Byte) :
    ∃ Tc Vb a', a.client G tb ((b.primus G ta Ts).1.1 ++ rest) Ts = .ok ((Tc, Vb, rest), a')
      ∧ Tc = (ta + tb) • G ∧ (b.primus G ta Ts).1.2 + Vb = (ta + tb) • Ts
      ∧ reveal G order (b.primus G ta Ts).2 a' Ts old = .ok (match xCoord C ((ta + tb) • Ts) with | none => old | some x => (x.val : Int)) := by
  obtain ⟨Tc, Vb, e, e3, e4⟩ := C41_public_key C hq G Ts ta tb h0 rest
  refine ⟨Tc, Vb, { a with tb := tb, Ta := ta • G }, ?_, e3, e4, (C41_reveal C G Ts order ta tb ta old ho hs).2 rfl⟩
  simp only [Obj.client, Obj.primus, e, bind, Except.bind]

/-- With a scalar of the caller on the client's side the exchange is the same but the object does not know of it: on a new object every honest `reveal_pms` fails. -/
theorem C41_client_overload (C : Group q) (hq : q ≤ 2 ^ 256) (G Ts : C.Pt) (order ta tb : Nat) (h0 : ta • G ≠ 0) (b : Obj C) (old : Int) (rest : List Byte) :
    ∃ Tc Vb a', Obj.clientArg ({} : Obj C) G tb ((b.primus G ta Ts).1.1 ++ rest) Ts = .ok ((Tc, Vb, rest), a')
      ∧ Tc = (ta + tb) • G ∧ (b.primus G ta Ts).1.2 + Vb = (ta + tb) • Ts
      ∧ reveal G order (b.primus G ta Ts).2 a' Ts old = .error (.error "Ta is not consistent!") := by
  obtain ⟨Tc, Vb, e, e3, e4⟩ := C41_public_key C hq G Ts ta tb h0 rest
  refine ⟨Tc, Vb, {}, ?_, e3, e4, ?_⟩
  · simp only [Obj.clientArg, Obj.primus, e, bind, Except.bind]
  · exact if_pos (show (b.primus G ta Ts).2.ta • G ≠ 0 from h0)

/-- With a scalar of the caller on the other side, the number revealed is what an earlier call left in the object: it is accepted exactly if it gives the same point. -/
theorem C41_primus_overload (C : Group q) (hq : q ≤ 2 ^ 256) (G Ts : C.Pt) (order ta tb : Nat) (h0 : ta • G ≠ 0) (b a : Obj C) (old : Int) (rest : List Byte) :
    ∃ Tc Vb a', a.client G tb ((b.primusArg G ta Ts).1.1 ++ rest) Ts = .ok ((Tc, Vb, rest), a')
      ∧ Tc = (ta + tb) • G
      ∧ (reveal G order (b.primusArg G ta Ts).2 a' Ts old = .error (.error "Ta is not consistent!") ↔ b.ta • G ≠ ta • G)
      ∧ (b = {} → reveal G order (b.primusArg G ta Ts).2 a' Ts old = .error (.error "Ta is not consistent!")) := by
  obtain ⟨Tc, Vb, e, e3, e4⟩ := C41_public_key C hq G Ts ta tb h0 rest
  have key : reveal G order (b.primusArg G ta Ts).2 { a with tb := tb, Ta := ta • G } Ts old = .error (.error "Ta is not consistent!") ↔ b.ta • G ≠ ta • G := by
    show revealPms C G order (ta • G) tb b.ta Ts old = _ ↔ _
    unfold revealPms
    split
    · simp [*]
    · rename_i h
      simp only [h, iff_false]
      split <;> simp
  refine ⟨Tc, Vb, { a with tb := tb, Ta := ta • G }, ?_, e3, key, fun hb => key.2 ?_⟩
  · simp only [Obj.client, Obj.primusArg, e, bind, Except.bind]
  · rw [hb]
    have z : (0 : Nat) • G = 0 := zero_nsmul G
    intro h
    exact h0 (h.symm.trans z)

/-- The curve `y² = x³ + 2x + 2` over `ZMod 17`, of prime order 19. -/
def exGroup : Group 17 := ⟨2, 2⟩

instance : Fact (Nat.Prime 17) := ⟨by decide⟩

def exG : exGroup.Pt := .some 5 1 (by decide +kernel)

theorem exG_order : addOrderOf exG = 19 := by
  have : Fact (Nat.Prime 19) := ⟨by decide⟩
  exact addOrderOf_eq_prime (by decide +kernel) (by decide +kernel)

/-- All hypotheses of `C41_end_to_end` hold together for `t_a = 2`, `t_b = 5`, `T_s = 3G`. -/
example (ccrh : Block → Block) (K : Nat → Block) (rest : List Byte) :
    ∃ Tc Vb oa ob z, clientVB exGroup exG 5 ((primusVA exGroup exG 2 (3 • exG)).1 ++ rest) (3 • exG)
        = .ok (2 • exG, Tc, Vb, rest)
      ∧ Tc = (2 + 5) • exG
      ∧ pms ccrh exGroup 1 K true ⟨1, 2, 3, 4⟩ ⟨5, 6, 7, 8⟩ (primusVA exGroup exG 2 (3 • exG)).2 Vb = .ok (oa, ob)
      ∧ revealPms exGroup exG 19 (2 • exG) 5 2 (3 • exG) 0 = .ok z
      ∧ xCoord exGroup ((2 + 5) • 3 • exG) = some (z : ZMod 17)
      ∧ (oa + ob) % (17 : Nat) = z ∧ 0 ≤ z ∧ z < (17 : Nat) :=
  C41_end_to_end ccrh exGroup (by norm_num) exG (3 • exG) 19 2 5 exG_order (by decide +kernel) 1 K true ⟨1, 2, 3, 4⟩
    ⟨5, 6, 7, 8⟩ (by decide +kernel) 16 3 (by decide +kernel) (by decide +kernel) (by decide +kernel) (by decide +kernel) rest

/-- `t_a = 2`, `t_b = 5`, `T_s = 3G`, new objects. -/
example : ∃ Tc Vb a', Obj.clientArg ({} : Obj exGroup) exG 5 ((Obj.primus ({} : Obj exGroup) exG 2 (3 • exG)).1.1 ++ []) (3 • exG) = .ok ((Tc, Vb, []), a')
    ∧ Tc = (2 + 5) • exG ∧ (Obj.primus ({} : Obj exGroup) exG 2 (3 • exG)).1.2 + Vb = (2 + 5) • 3 • exG
    ∧ reveal exG 19 (Obj.primus ({} : Obj exGroup) exG 2 (3 • exG)).2 a' (3 • exG) 0 = .error (.error "Ta is not consistent!") :=
  C41_client_overload exGroup (by norm_num) exG (3 • exG) 19 2 5 (by decide +kernel) {} 0 []

/-- The defect is real: on this curve the x coordinate of `P + 0` is not what the parties get. -/
example : ((1 : ZMod 17) / 5) ^ 2 - 5 ≠ 5 := by decide +kernel

end Verif.Props
