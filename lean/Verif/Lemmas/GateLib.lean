import Verif.Lemmas.GateRef
import Verif.Lemmas.Integer

/-! The usual circuits for `+`, `-`, `geq`, `select` compute the operators. -/

namespace Verif.Lemmas.Gate
open Verif.Model Verif.Model.Gate

theorem val_lt' (x : Integer) : Integer.val x < 2 ^ x.length := by
  induction x with
  | nil => simp [Integer.val]
  | cons b x ih =>
    simp only [Integer.val, List.length_cons, Nat.pow_succ]
    cases b <;> simp <;> omega

theorem IR.headD {s : Sess} {x : SInt} {v : Integer} (h : IR s x v) : BR s (x.headD (.pub false)) (v.headD false) := by
  cases h with
  | nil => exact BR.pub _
  | cons h _ => exact h

theorem IR.getLastD {s : Sess} {x : SInt} {v : Integer} (h : IR s x v) : BR s (x.getLastD (.pub false)) (v.getLastD false) := by
  induction h with
  | nil => exact BR.pub _
  | @cons a b l m h hl ih =>
    cases hl with
    | nil => exact h
    | cons h' hl' => exact ih

theorem Ref.addRipple : ∀ {s : Sess} {a b : SInt} {c : Wire} {x y : Integer} {z : Bool}, IR s a x → IR s b y → BR s c z →
    x.length = y.length → Ref s (addRipple a b c) (fun t w => IR t w (Integer.ofNat x.length (Integer.val x + Integer.val y + z.toNat))) := by
  intro s a
  induction a generalizing s with
  | nil =>
    intro b c x y z ha hb hc hl
    cases ha
    exact Ref.pure .nil
  | cons a as ih =>
    intro b c x y z ha hb hc hl
    cases ha with
    | @cons _ x _ xs h1 h2 =>
      cases hb with
      | nil => cases hl
      | @cons b y bs ys h3 h4 =>
        simp only [List.length_cons, Nat.add_right_cancel_iff] at hl
        have par : ∀ p q r : Bool, ∀ X Y : Nat, (p.toNat + 2 * X + (q.toNat + 2 * Y) + r.toNat) % 2 = ((r ^^ q) ^^ p).toNat := by
          intro p q r X Y; cases p <;> cases q <;> cases r <;> simp <;> omega
        have car : ∀ p q r : Bool, ∀ X Y : Nat, (p.toNat + 2 * X + (q.toNat + 2 * Y) + r.toNat) / 2
            = X + Y + (r ^^ ((p ^^ r) && (q ^^ r))).toNat := by
          intro p q r X Y; cases p <;> cases q <;> cases r <;> simp <;> omega
        cases h2 with
        | nil =>
          unfold Gate.addRipple
          refine Ref.bind (Ref.xorG hc h3) fun t u e ht => ?_
          lift_ext e
          refine Ref.bind (Ref.xorG ht h1) fun d u' e hd => ?_
          refine Ref.pure (.cons ?_ .nil)
          simp only [Integer.val, par]
          have : (((z ^^ y) ^^ x).toNat == 1) = ((z ^^ y) ^^ x) := by cases x <;> cases y <;> cases z <;> rfl
          rw [this]
          exact hd
        | @cons a' x' as' xs' h5 h6 =>
          have h2 : IR s (a' :: as') (x' :: xs') := .cons h5 h6
          have h4 : IR s bs ys := h4
          unfold Gate.addRipple
          refine Ref.bind (Ref.xorG h1 hc) fun axc u e haxc => ?_
          lift_ext e
          refine Ref.bind (Ref.xorG h3 hc) fun bxc u e hbxc => ?_
          lift_ext e
          refine Ref.bind (Ref.xorG h1 hbxc) fun d u e hd => ?_
          lift_ext e
          refine Ref.bind (Ref.andG haxc hbxc) fun t u e ht => ?_
          lift_ext e
          refine Ref.bind (Ref.xorG hc ht) fun c' u e hc' => ?_
          lift_ext e
          refine Ref.bind (ih h2 h4 hc' hl) fun r u e hr => ?_
          lift_ext e
          refine Ref.pure ?_
          have e1 : Integer.ofNat (x :: x' :: xs').length (Integer.val (x :: x' :: xs') + Integer.val (y :: ys) + z.toNat)
              = (x ^^ (y ^^ z)) :: Integer.ofNat (x' :: xs').length
                (Integer.val (x' :: xs') + Integer.val ys + (z ^^ ((x ^^ z) && (y ^^ z))).toNat) := by
            rw [show (x :: x' :: xs').length = (x' :: xs').length + 1 from rfl, Integer.ofNat,
              show Integer.val (x :: x' :: xs') = x.toNat + 2 * Integer.val (x' :: xs') from rfl,
              show Integer.val (y :: ys) = y.toNat + 2 * Integer.val ys from rfl, par, car]
            congr 1
            cases x <;> cases y <;> cases z <;> rfl
          rw [e1]
          exact .cons hd hr

theorem Ref.subRipple : ∀ {s : Sess} {a b : SInt} {c : Wire} {x y : Integer} {z : Bool}, IR s a x → IR s b y → BR s c z →
    x.length = y.length →
    Ref s (subRipple a b c) (fun t w => IR t w (Integer.ofNat x.length (Integer.val x + 2 ^ x.length - Integer.val y - z.toNat))) := by
  intro s a
  induction a generalizing s with
  | nil =>
    intro b c x y z ha hb hc hl
    cases ha
    exact Ref.pure .nil
  | cons a as ih =>
    intro b c x y z ha hb hc hl
    cases ha with
    | @cons _ x _ xs h1 h2 =>
      cases hb with
      | nil => cases hl
      | @cons b y bs ys h3 h4 =>
        simp only [List.length_cons, Nat.add_right_cancel_iff] at hl
        have par : ∀ p q r : Bool, ∀ X Y P : Nat, Y < P →
            (p.toNat + 2 * X + P * 2 - (q.toNat + 2 * Y) - r.toNat) % 2 = ((r ^^ q) ^^ p).toNat := by
          intro p q r X Y P h; cases p <;> cases q <;> cases r <;> simp <;> omega
        have car : ∀ p q r : Bool, ∀ X Y P : Nat, Y < P → (p.toNat + 2 * X + P * 2 - (q.toNat + 2 * Y) - r.toNat) / 2
            = X + P - Y - (r ^^ ((p ^^ q) && (r ^^ q))).toNat := by
          intro p q r X Y P h; cases p <;> cases q <;> cases r <;> simp <;> omega
        have hlt : Integer.val ys < 2 ^ xs.length := by rw [hl]; exact val_lt' ys
        cases h2 with
        | nil =>
          unfold Gate.subRipple
          refine Ref.bind (Ref.xorG hc h3) fun t u e ht => ?_
          lift_ext e
          refine Ref.bind (Ref.xorG ht h1) fun d u' e hd => ?_
          refine Ref.pure (.cons ?_ .nil)
          simp only [Integer.val, List.length_cons, Nat.pow_succ]
          rw [par x y z 0 _ _ hlt]
          have : (((z ^^ y) ^^ x).toNat == 1) = ((z ^^ y) ^^ x) := by cases x <;> cases y <;> cases z <;> rfl
          rw [this]
          exact hd
        | @cons a' x' as' xs' h5 h6 =>
          have h2 : IR s (a' :: as') (x' :: xs') := .cons h5 h6
          have h4 : IR s bs ys := h4
          unfold Gate.subRipple
          refine Ref.bind (Ref.xorG h1 h3) fun axc u e haxc => ?_
          lift_ext e
          refine Ref.bind (Ref.xorG hc h3) fun bxc u e hbxc => ?_
          lift_ext e
          refine Ref.bind (Ref.xorG haxc hc) fun d u e hd => ?_
          lift_ext e
          refine Ref.bind (Ref.andG haxc hbxc) fun t u e ht => ?_
          lift_ext e
          refine Ref.bind (Ref.xorG hc ht) fun c' u e hc' => ?_
          lift_ext e
          refine Ref.bind (ih h2 h4 hc' hl) fun r u e hr => ?_
          lift_ext e
          refine Ref.pure ?_
          have e1 : Integer.ofNat (x :: x' :: xs').length
                (Integer.val (x :: x' :: xs') + 2 ^ (x :: x' :: xs').length - Integer.val (y :: ys) - z.toNat)
              = ((x ^^ y) ^^ z) :: Integer.ofNat (x' :: xs').length
                (Integer.val (x' :: xs') + 2 ^ (x' :: xs').length - Integer.val ys - (z ^^ ((x ^^ y) && (z ^^ y))).toNat) := by
            rw [show (x :: x' :: xs').length = (x' :: xs').length + 1 from rfl, Integer.ofNat,
              show Integer.val (x :: x' :: xs') = x.toNat + 2 * Integer.val (x' :: xs') from rfl,
              show Integer.val (y :: ys) = y.toNat + 2 * Integer.val ys from rfl, Nat.pow_succ,
              par _ _ _ _ _ _ hlt, car _ _ _ _ _ _ hlt]
            congr 1
            cases x <;> cases y <;> cases z <;> rfl
          rw [e1]
          exact .cons hd hr

theorem Ref.selBits : ∀ {s : Sess} {a b : SInt} {c : Wire} {x y : Integer} {z : Bool}, IR s a x → IR s b y → BR s c z →
    x.length = y.length → Ref s (selBits c a b) (fun t w => IR t w (Integer.select x z y)) := by
  intro s a
  induction a generalizing s with
  | nil =>
    intro b c x y z ha hb hc hl
    cases ha
    cases hb with
    | nil => refine Ref.pure ?_; cases z <;> exact .nil
    | cons => cases hl
  | cons a as ih =>
    intro b c x y z ha hb hc hl
    cases ha with
    | @cons _ x _ xs h1 h2 =>
      cases hb with
      | nil => cases hl
      | @cons b y bs ys h3 h4 =>
        simp only [List.length_cons, Nat.add_right_cancel_iff] at hl
        have h2 : IR s as xs := h2
        have h4 : IR s bs ys := h4
        unfold Gate.selBits
        refine Ref.bind (Ref.xorG h1 h3) fun p u e hp => ?_
        lift_ext e
        refine Ref.bind (Ref.andG hp hc) fun q u e hq => ?_
        lift_ext e
        refine Ref.bind (Ref.xorG h1 hq) fun d u e hd => ?_
        lift_ext e
        refine Ref.bind (ih h2 h4 hc hl) fun r u e hr => ?_
        lift_ext e
        refine Ref.pure ?_
        have e1 : Integer.select (x :: xs) z (y :: ys) = (x ^^ ((x ^^ y) && z)) :: Integer.select xs z ys := by
          cases z <;> cases x <;> cases y <;> rfl
        rw [e1]
        exact .cons hd hr

/-- The usual circuits are sound. -/
theorem empLib_sound : LibSound empLib where
  add ha hb hl := (Ref.addRipple ha hb (BR.pub false) hl)
  sub ha hb hl := (Ref.subRipple ha hb (BR.pub false) hl)
  geq ha hb hl := by
    refine Ref.bind (Ref.subRipple ha hb (BR.pub false) hl) fun r u e hr => ?_
    exact Ref.notG hr.getLastD
  select ha hc hb hl := Ref.selBits ha hb hc hl

end Verif.Lemmas.Gate
