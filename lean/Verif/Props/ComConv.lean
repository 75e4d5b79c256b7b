import Verif.Model.ComConv
import Verif.Props.OLE
import Verif.Props.Network
import Verif.Lemmas.BlockConv
import Mathlib.Data.ZMod.Basic
import Mathlib.Tactic.Ring
import Mathlib.Tactic.LinearCombination
import Mathlib.Algebra.Module.Basic
import Mathlib.Tactic.Abel

set_option linter.unusedSectionVars false

/-!
C35: an honest run of `ComConv` succeeds and its commitments open to the numbers whose bits are the chunks.
C36: what `open` accepts.
-/

namespace Verif.Props.ComConv
open Verif.Model Integer SHA Network Verif.Model.ComConv

/-- The number with the given bits, least significant first. -/
def bitsNat : List Bool → Nat
  | [] => 0
  | b :: l => b.toNat + 2 * bitsNat l

theorem bitsNat_lt (l : List Bool) : bitsNat l < 2 ^ l.length := by
  induction l with
  | nil => simp [bitsNat]
  | cons b l ih => cases b <;> simp [bitsNat, pow_succ] <;> omega

theorem mapM_ok {α β : Type} (f : α → Res β) (g : α → β) : ∀ (l : List α), (∀ x ∈ l, f x = .ok (g x)) → l.mapM f = .ok (l.map g)
  | [], _ => rfl
  | x :: l, h => by
    rw [List.mapM_cons, h x (by simp), mapM_ok f g l fun y hy => h y (by simp [hy])]
    rfl

theorem chunks_map {α β : Type} (bs : Nat) (f : α → β) (l : List α) : chunks bs (l.map f) = (chunks bs l).map (List.map f) := by
  simp [chunks, List.map_drop, List.map_take]

theorem chunks_len {α : Type} (bs : Nat) (l : List α) : ∀ c ∈ chunks bs l, c.length ≤ bs := by
  intro c hc
  simp only [chunks, List.mem_map] at hc
  obtain ⟨i, _, rfl⟩ := hc
  simp

/-- Every element is in exactly one chunk, in order. -/
theorem chunks_flatten {α : Type} (bs : Nat) (hb : 0 < bs) (l : List α) : (chunks bs l).flatten = l := by
  have key : ∀ n, ((List.range n).map fun i => (l.drop (i * bs)).take bs).flatten = l.take (n * bs) := by
    intro n
    induction n with
    | zero => simp
    | succ n ih =>
      rw [List.range_succ, List.map_append, List.flatten_append, ih, Nat.succ_mul, List.take_add]
      simp
  unfold chunks
  rw [key, List.take_of_length_le]
  have := Nat.div_add_mod (l.length + bs - 1) bs
  have h2 := Nat.mod_lt (l.length + bs - 1) hb
  have : (l.length + bs - 1) / bs * bs = bs * ((l.length + bs - 1) / bs) := Nat.mul_comm _ _
  omega

section
variable {q : Nat}

/-- Weighted sum `Σ 2^j a_j`. -/
def wsum {R : Type} [CommRing R] : List R → R
  | [] => 0
  | a :: l => a + 2 * wsum l

theorem cast_mod (a : Int) : ((a % (q : Int) : Int) : ZMod q) = (a : ZMod q) := ZMod.intCast_mod a q

theorem cast_exp (j : Nat) : ((OLE.exp q j : Int) : ZMod q) = 2 ^ j := by
  unfold OLE.exp; rw [cast_mod]; push_cast; rfl

theorem sum_fold (l : List Int) : ∀ (k : Nat) (acc : Int),
    (((l.zipIdx k).foldl (fun acc p => (acc + (OLE.exp q p.2 * p.1) % q) % q) acc : Int) : ZMod q)
      = acc + 2 ^ k * wsum (l.map (fun (x : Int) => (x : ZMod q))) := by
  induction l with
  | nil => intro k acc; simp [wsum]
  | cons a l ih =>
    intro k acc
    rw [List.zipIdx_cons, List.foldl_cons, ih, cast_mod]
    push_cast
    rw [cast_exp, List.map_cons, wsum, pow_succ]
    ring

theorem msg_fold (l : List Bool) : ∀ (k : Nat) (acc : Int),
    (((l.zipIdx k).foldl (fun acc p => if p.1 then (acc + OLE.exp q p.2) % q else acc) acc : Int) : ZMod q)
      = acc + 2 ^ k * (bitsNat l : ZMod q) := by
  induction l with
  | nil => intro k acc; simp [bitsNat]
  | cons a l ih =>
    intro k acc
    rw [List.zipIdx_cons, List.foldl_cons, ih]
    cases a
    · simp only [Bool.false_eq_true, if_false, bitsNat, Bool.toNat_false, Nat.zero_add]
      push_cast; ring
    · simp only [if_true, bitsNat, Bool.toNat_true]
      rw [cast_mod]; push_cast; rw [cast_exp]; ring

theorem msg_range (hq : 0 < q) (l : List Bool) : ∀ (k : Nat) (acc : Int), 0 ≤ acc ∧ acc < q →
    0 ≤ ((l.zipIdx k).foldl (fun acc p => if p.1 then (acc + OLE.exp q p.2) % q else acc) acc)
    ∧ ((l.zipIdx k).foldl (fun acc p => if p.1 then (acc + OLE.exp q p.2) % q else acc) acc) < q := by
  have h : (0 : Int) < q := by exact_mod_cast hq
  induction l with
  | nil => intro k acc ha; simpa using ha
  | cons a l ih =>
    intro k acc ha
    rw [List.zipIdx_cons, List.foldl_cons]
    apply ih
    cases a
    · simpa using ha
    · exact ⟨Int.emod_nonneg _ h.ne', Int.emod_lt_of_pos _ h⟩

theorem eq_of_cast {a b : Int} (ha : 0 ≤ a ∧ a < q) (hb : 0 ≤ b ∧ b < q) (h : (a : ZMod q) = b) : a = b := by
  have := (ZMod.intCast_eq_intCast_iff' a b q).mp h
  rwa [Int.emod_eq_of_lt ha.1 ha.2, Int.emod_eq_of_lt hb.1 hb.2] at this

/-- Inner product. -/
def dot : List Int → List Int → Int
  | a :: l, b :: m => a * b + dot l m
  | _, _ => 0

theorem lin_fold : ∀ (l m : List Int) (acc : Int),
    (((l.zip m).foldl (fun acc p => (acc + (p.1 * p.2) % q) % q) acc : Int) : ZMod q) = acc + (dot l m : ZMod q)
  | [], m, acc => by simp [dot]
  | _ :: _, [], acc => by simp [dot]
  | a :: l, b :: m, acc => by
    rw [List.zip_cons_cons, List.foldl_cons, lin_fold l m, cast_mod]
    push_cast
    rw [dot]
    push_cast
    ring

theorem lin_range (hq : 0 < q) (l : List (Int × Int)) : ∀ (acc : Int), 0 ≤ acc ∧ acc < q →
    0 ≤ l.foldl (fun acc p => (acc + (p.1 * p.2) % (q : Int)) % (q : Int)) acc
    ∧ l.foldl (fun acc p => (acc + (p.1 * p.2) % (q : Int)) % (q : Int)) acc < q := by
  have h : (0 : Int) < q := by exact_mod_cast hq
  induction l with
  | nil => intro acc ha; exact ha
  | cons a l ih =>
    intro acc _
    exact ih _ ⟨Int.emod_nonneg _ h.ne', Int.emod_lt_of_pos _ h⟩

end

section ole
open OLE

theorem sendLoop_range (h : Block → Int) (q : Int) (hq : 0 < q) (delta : Block) (x : Int) (l : List (Nat × Block)) :
    ∀ o, 0 ≤ o ∧ o < q → 0 ≤ (sendLoop h q delta x l o).1 ∧ (sendLoop h q delta x l o).1 < q := by
  induction l with
  | nil => intro o ho; exact ho
  | cons p l ih =>
    intro o _
    exact ih _ ⟨Int.emod_nonneg _ hq.ne', Int.emod_lt_of_pos _ hq⟩

theorem recvLoop_range (h : Block → Int) (q : Int) (hq : 0 < q) (l : List (Nat × Bool × Block)) :
    ∀ (ms : List Int) (o : Int) (r : Int × List Int), 0 ≤ o ∧ o < q → recvLoop h q l ms o = .ok r → 0 ≤ r.1 ∧ r.1 < q := by
  induction l with
  | nil => intro ms o r ho e; cases e; exact ho
  | cons p l ih =>
    intro ms o r _ e
    cases ms with
    | nil => cases e
    | cons m ms => exact ih _ _ _ ⟨Int.emod_nonneg _ hq.ne', Int.emod_lt_of_pos _ hq⟩ e

/-- One element: residues that sum to the product. -/
theorem ole_one (ccrh : Block → Block) (q : Nat) (hq : 0 < q) (n : Nat) (delta : Block) (K : Nat → Block) (x : Int) (y : Nat)
    (hy : y < 2 ^ n) : ∃ a b : Int, compute ccrh q n delta K [x] [(y : Int)] = .ok ([a], [b], [])
      ∧ (0 ≤ a ∧ a < q) ∧ (0 ≤ b ∧ b < q) ∧ ((a + b : Int) : ZMod q) = ((x * y : Int) : ZMod q) := by
  have hq' : (0 : Int) < q := by exact_mod_cast hq
  obtain ⟨os, or', e, l1, l2, r⟩ := C21_ole ccrh q n delta K [x] [y] rfl (by simpa using hy)
  match os, or', l1, l2 with
  | [a], [b], _, _ =>
    have hs := r 0 x a b y rfl rfl rfl rfl
    refine ⟨a, b, e, ?_, ?_, (ZMod.intCast_eq_intCast_iff' _ _ q).mpr hs⟩
    all_goals
      simp only [compute, send, recv, List.map_cons, List.map_nil, List.append_nil, Int.ofNat_eq_natCast] at e
      simp only [bind, Except.bind] at e
      split at e
      · cases e
      · rename_i v hv
        split at hv
        · cases hv
        · rename_i w hw
          cases hv
          simp only [Except.ok.injEq, Prod.mk.injEq, List.cons.injEq] at e
          obtain ⟨⟨rfl, -⟩, ⟨rfl, -⟩, -⟩ := e
          first
          | exact sendLoop_range _ _ hq' _ _ _ _ ⟨le_refl _, hq'⟩
          | exact recvLoop_range _ _ hq' _ _ _ _ ⟨le_refl _, hq'⟩ hw

end ole


section group
variable {G : Type} [AddCommGroup G]

theorem zsmul_mod {q : Nat} {P : G} (h : q • P = 0) (a : Int) : (a % (q : Int)) • P = a • P := by
  have e : a • P = (a % (q : Int)) • P + (q * (a / q) : Int) • P := by
    rw [← add_zsmul, Int.emod_add_mul_ediv]
  rw [e, mul_comm, mul_zsmul, natCast_zsmul, h, zsmul_zero, add_zero]

theorem zsmul_congr {q : Nat} {P : G} (h : q • P = 0) {a b : Int} (e : (a : ZMod q) = b) : a • P = b • P := by
  rw [← zsmul_mod h a, ← zsmul_mod h b, (ZMod.intCast_eq_intCast_iff' a b q).mp e]

theorem comb (g h : G) : ∀ (ms rs cs : List Int) (acc : G), rs.length = ms.length →
    ((List.zipWith (fun m r => (m • g + r • h : G)) ms rs).zip cs).foldl (fun acc p => acc + p.2 • p.1) acc
      = acc + (dot ms cs • g + dot rs cs • h)
  | [], [], cs, acc, _ => by simp [dot]
  | m :: ms, r :: rs, [], acc, _ => by simp [dot]
  | m :: ms, r :: rs, c :: cs, acc, hl => by
    rw [List.zipWith_cons_cons, List.zip_cons_cons, List.foldl_cons, comb g h ms rs cs _ (by simpa using hl)]
    simp only [dot, add_zsmul, zsmul_add, mul_comm m c, mul_comm r c, mul_zsmul]
    abel

theorem dot_append : ∀ (l m : List Int) (a b : Int), l.length = m.length → dot (l ++ [a]) (m ++ [b]) = dot l m + a * b
  | [], [], a, b, _ => by simp [dot]
  | x :: l, y :: m, a, b, h => by
    simp only [List.cons_append, dot, dot_append l m a b (by simpa using h)]
    ring

variable [DecidableEq G]

theorem numBits_ge {q bs : Nat} (h : 2 ^ bs ≤ q) : bs < numBits q := by
  have hq : q ≠ 0 := by have := Nat.two_pow_pos bs; omega
  unfold numBits
  rw [if_neg hq]
  have := (Nat.le_log2 hq).mpr h
  omega

theorem lt_numBits (q : Nat) : q < 2 ^ numBits q := by
  unfold numBits
  split
  · subst_vars; decide
  · exact Nat.lt_log2_self

theorem batchCheck_ok {q bs : Nat} (hb : 0 < bs) (h31 : bs < 2 ^ 31) (h : 2 ^ bs ≤ q) : batchCheck q bs = .ok () := by
  have e : toInt32 bs = bs := by
    unfold toInt32
    rw [Nat.mod_eq_of_lt (by omega)]
    simp only [h31, if_true]
  have e2 : bsInt bs = 2 ^ bs - 1 := by
    unfold bsInt
    rw [e, if_neg (by omega)]
    simp
  have : ((2 ^ bs : Nat) : Int) ≤ q := by exact_mod_cast h
  push_cast at this
  unfold batchCheck
  rw [e2, if_neg (by omega), if_neg (by omega)]

/-- The mask `r` gets a key and a MAC. -/
theorem mask_ok (E : Env G) (hq : 0 < E.q) (keySends : Bool) (R : Rand) (ha : R.aDelta < E.q) (hr : R.r < E.q) :
    ∃ rKEY rMAC : Int, E.mask keySends R = .ok (rKEY, rMAC) ∧ (0 ≤ rMAC ∧ rMAC < E.q)
      ∧ (rMAC : ZMod E.q) = rKEY + R.r * R.aDelta := by
  have hn := lt_numBits E.q
  cases keySends
  · obtain ⟨a, b, e, h1, h2, h3⟩ := ole_one E.ccrh E.q hq (numBits E.q) R.otDelta R.otKeys R.r R.aDelta (by omega)
    refine ⟨E.q - b, a, ?_, h1, ?_⟩
    · simp only [Env.mask, e, Bool.false_eq_true, if_false, bind, Except.bind]; rfl
    · push_cast at h3 ⊢
      simp only [CharP.cast_eq_zero]
      linear_combination h3
  · obtain ⟨a, b, e, h1, h2, h3⟩ := ole_one E.ccrh E.q hq (numBits E.q) R.otDelta R.otKeys R.aDelta R.r (by omega)
    refine ⟨E.q - a, b, ?_, h2, ?_⟩
    · simp only [Env.mask, e, if_true, bind, Except.bind]; rfl
    · push_cast at h3 ⊢
      simp only [CharP.cast_eq_zero]
      linear_combination h3

end group

section main
variable {G : Type} [AddCommGroup G] [DecidableEq G]

/-- MAC of an authenticated bit. -/
def macOf (bDelta : Block) (p : Block × Bool) : Block := p.1 ^^^ (if p.2 then bDelta else 0)

theorem mac_lsb {bDelta : Block} (hd : bDelta.getLsbD 0 = true) {p : Block × Bool} (hk : p.1.getLsbD 0 = false) :
    (macOf bDelta p).getLsbD 0 = p.2 := by
  obtain ⟨k, b⟩ := p
  cases b
  · simpa [macOf] using hk
  · simp only [macOf, if_true, BitVec.getLsbD_xor, hd]; simp at hk; simp [hk]

theorem strncmpEq_refl : ∀ l, strncmpEq l l = true
  | [] => rfl
  | a :: l => by
    unfold strncmpEq
    simp only [ne_eq, not_true_eq_false, if_false, strncmpEq_refl l]
    split <;> rfl

/-- The arithmetic key, MAC of a pair. -/
def Env.aKey (E : Env G) (p : Block × Bool) : Int := E.H p.1

def Env.aMsg (E : Env G) (bDelta : Block) (aDelta : Int) (p : Block × Bool) : Int :=
  (E.H (p.1 ^^^ bDelta) + E.H p.1 + aDelta) % E.q

def Env.aMac (E : Env G) (bDelta : Block) (aDelta : Int) (p : Block × Bool) : Int :=
  if p.2 then ((Env.aMsg E bDelta aDelta p - E.H (p.1 ^^^ bDelta)) + E.q) % E.q else E.H p.1

theorem aMac_eq (E : Env G) (bDelta : Block) (aDelta : Int) (p : Block × Bool) :
    ((Env.aMac E bDelta aDelta p : Int) : ZMod E.q) = (Env.aKey E p : ZMod E.q) + (p.2.toNat : ZMod E.q) * aDelta := by
  obtain ⟨k, b⟩ := p
  cases b
  · simp [Env.aMac, Env.aKey]
  · simp only [Env.aMac, if_true, Env.aMsg, Env.aKey, cast_mod]
    push_cast
    simp only [CharP.cast_eq_zero, Bool.toNat_true]
    push_cast
    ring

theorem convertRecv_eq (E : Env G) (bDelta : Block) (aDelta : Int) (hd : bDelta.getLsbD 0 = true) (ps : List (Block × Bool))
    (hk : ∀ p ∈ ps, p.1.getLsbD 0 = false) :
    E.convertRecv (ps.map (macOf bDelta)) (ps.map (Env.aMsg E bDelta aDelta)) = ps.map (Env.aMac E bDelta aDelta) := by
  unfold Env.convertRecv
  rw [List.zipWith_map, List.zipWith_self]
  apply List.map_congr_left
  intro p hp
  rw [mac_lsb hd (hk p hp)]
  obtain ⟨k, b⟩ := p
  cases b
  · simp [Env.aMac, macOf]
  · simp [Env.aMac, macOf]

/-- The batched key, MAC of a chunk. -/
def sumVal (q : Nat) (l : List Int) : Int := l.zipIdx.foldl (fun acc p => (acc + (OLE.exp q p.2 * p.1) % q) % q) 0

theorem sumVal_cast (q : Nat) (l : List Int) : ((sumVal q l : Int) : ZMod q) = wsum (l.map (fun (x : Int) => (x : ZMod q))) := by
  unfold sumVal
  rw [sum_fold]
  simp

theorem wsum_mac (E : Env G) (bDelta : Block) (aDelta : Int) (c : List (Block × Bool)) :
    wsum ((c.map (Env.aMac E bDelta aDelta)).map (fun (x : Int) => (x : ZMod E.q)))
      = wsum ((c.map (Env.aKey E)).map (fun (x : Int) => (x : ZMod E.q))) + (bitsNat (c.map (·.2)) : ZMod E.q) * aDelta := by
  induction c with
  | nil => simp [wsum, bitsNat]
  | cons p c ih =>
    simp only [List.map_cons, wsum, bitsNat, ih, aMac_eq]
    push_cast
    ring

theorem dot_mac (E : Env G) (bDelta : Block) (aDelta : Int) : ∀ (cs : List (List (Block × Bool))) (chi : List Int),
    (dot chi (cs.map fun c => sumVal E.q (c.map (Env.aMac E bDelta aDelta))) : ZMod E.q)
      = dot chi (cs.map fun c => sumVal E.q (c.map (Env.aKey E)))
        + (dot (cs.map fun c => (bitsNat (c.map (·.2)) : Int)) chi : ZMod E.q) * aDelta
  | _, [] => by cases ‹List (List (Block × Bool))› <;> simp [dot]
  | [], _ :: _ => by simp [dot]
  | c :: cs, x :: chi => by
    simp only [List.map_cons, dot]
    push_cast
    rw [dot_mac E bDelta aDelta cs chi, sumVal_cast, sumVal_cast, wsum_mac]
    ring

theorem chunkSum_ok (E : Env G) {l : List Int} (h : l.length ≤ numBits E.q) : E.chunkSum l = .ok (sumVal E.q l) := by
  unfold Env.chunkSum
  rw [if_neg (by omega)]
  rfl

theorem chunkMsg_ok (E : Env G) {bs : Nat} (hbs : 2 ^ bs ≤ E.q) {l : List Bool} (h : l.length ≤ bs) :
    E.chunkMsg l = .ok (bitsNat l : Int) := by
  have hn := numBits_ge hbs
  have hq : 0 < E.q := Nat.lt_of_lt_of_le (Nat.two_pow_pos bs) hbs
  unfold Env.chunkMsg
  rw [if_neg (by omega)]
  congr 1
  apply eq_of_cast (msg_range hq l 0 0 ⟨le_refl _, by exact_mod_cast hq⟩)
  · refine ⟨by positivity, ?_⟩
    have h1 := bitsNat_lt l
    have h2 := Nat.pow_le_pow_right (n := 2) (by omega) h
    exact_mod_cast (by omega : bitsNat l < E.q)
  · rw [msg_fold]; simp

/-- C35 up to the restriction `0 < bs < 2^31`: in an honest run, whatever the randomness and the transcript coefficients,
both parties accept, hold the same commitments, and the `i`-th commitment opens to the number whose bits are the `i`-th
chunk. -/
theorem C35_honest_partial (E : Env G) (hord : ∀ P : G, E.q • P = 0) (hc : ∀ P : G, (E.dec (E.enc P)).getD 0 = P)
    (keySends : Bool) (bDelta : Block) (hd : bDelta.getLsbD 0 = true) (ps : List (Block × Bool))
    (hk : ∀ p ∈ ps, p.1.getLsbD 0 = false) (bs : Nat) (hb : 0 < bs) (h31 : bs < 2 ^ 31) (hbs : 2 ^ bs - 1 < E.q)
    (R : Rand) (ha : R.aDelta < E.q) (hr : R.r < E.q) (hl : R.rnds.length = (ps.length + bs - 1) / bs) :
    ∃ out, E.run keySends bDelta (ps.map (·.1)) (ps.map fun p => p.1 ^^^ (if p.2 then bDelta else 0)) bs R = .ok out
      ∧ out.sendOk = true ∧ out.recvOk = true ∧ out.comS = out.comR ∧ out.comR.length = (ps.length + bs - 1) / bs
      ∧ ∀ i rnd, R.rnds[i]? = some rnd →
          ∃ c, out.comR[i]? = some c ∧ E.openCheck c rnd (bitsNat (((ps.map (·.2)).drop (i * bs)).take bs)) = true := by
  have hbs' : 2 ^ bs ≤ E.q := by omega
  have hq : 0 < E.q := Nat.lt_of_lt_of_le (Nat.two_pow_pos bs) hbs'
  have hn := numBits_ge hbs'
  obtain ⟨rKEY, rMAC, em, hrm, hm⟩ := mask_ok E hq keySends R ha hr
  have e0 : (ps.map fun p => p.1 ^^^ (if p.2 then bDelta else 0)) = ps.map (macOf bDelta) := rfl
  have e1 : E.convert bDelta R.aDelta (ps.map (·.1)) = (ps.map (Env.aKey E), ps.map (Env.aMsg E bDelta R.aDelta)) := by
    simp [Env.convert, Env.aKey, Env.aMsg]
  have e2 := convertRecv_eq E bDelta R.aDelta hd ps hk
  have e3 : (ps.map (macOf bDelta)).map (fun m => m.getLsbD 0) = ps.map (·.2) := by
    rw [List.map_map]
    exact List.map_congr_left fun p hp => mac_lsb hd (hk p hp)
  have e4 : (ps.map (macOf bDelta)).map (fun m => if m.getLsbD 0 then m ^^^ bDelta else m) = ps.map (·.1) := by
    rw [List.map_map]
    apply List.map_congr_left
    intro p hp
    simp only [Function.comp, mac_lsb hd (hk p hp)]
    obtain ⟨k, b⟩ := p
    cases b <;> simp [macOf, BitVec.xor_assoc]
  have cl := chunks_len bs ps
  have m1 : ∀ f : Block × Bool → Int, (chunks bs (ps.map f)).mapM E.chunkSum = .ok ((chunks bs ps).map fun c => sumVal E.q (c.map f)) := by
    intro f
    rw [chunks_map, mapM_ok E.chunkSum (sumVal E.q), List.map_map]
    · rfl
    · intro x hx
      rw [List.mem_map] at hx
      obtain ⟨c, hc', rfl⟩ := hx
      have := cl c hc'
      exact chunkSum_ok E (by rw [List.length_map]; omega)
  have m2 : (chunks bs (ps.map (·.2))).mapM E.chunkMsg = .ok ((chunks bs ps).map fun c => (bitsNat (c.map (·.2)) : Int)) := by
    rw [chunks_map, mapM_ok E.chunkMsg (fun l => (bitsNat l : Int)), List.map_map]
    · rfl
    · intro x hx
      rw [List.mem_map] at hx
      obtain ⟨c, hc', rfl⟩ := hx
      exact chunkMsg_ok E hbs' (by rw [List.length_map]; exact cl c hc')
  have hcl : (chunks bs ps).length = (ps.length + bs - 1) / bs := by simp [chunks]
  have hrun : ∃ out, E.run keySends bDelta (ps.map (·.1)) (ps.map fun p => p.1 ^^^ (if p.2 then bDelta else 0)) bs R = .ok out
      ∧ out.sendOk = true ∧ out.recvOk = true ∧ out.comS = out.comR
      ∧ out.comR = List.zipWith (fun m rnd => E.mul m rnd) ((chunks bs ps).map fun c => (bitsNat (c.map (·.2)) : Int)) R.rnds := by
    refine ⟨?_, ?_, ?_⟩
    rotate_left
    · rw [e0]
      unfold Env.run
      simp only [batchCheck_ok hb h31 hbs', em, e1, e2, e3, m1, m2, bind, Except.bind]
      rfl
    · generalize hchi : E.chi _ = chi
      simp only [hc, List.map_id', List.length_map]
      refine ⟨?_, ?_, trivial, trivial⟩
      · simp only [BEq.rfl, Bool.and_true, Bool.and_eq_true, beq_iff_eq]
        generalize hX : (List.range (chunks bs ps).length).map chi = X
        have lX : X.length = (chunks bs ps).length := by rw [← hX]; simp
        generalize hN : (chunks bs ps).map (fun c => (bitsNat (c.map (·.2)) : Int)) = N
        have lN : N.length = (chunks bs ps).length := by rw [← hN]; simp
        have cR : (E.linearCombRand (R.rnds ++ [R.rndR]) (X ++ [1]) : ZMod E.q) = (dot R.rnds X + R.rndR : Int) := by
          unfold Env.linearCombRand
          rw [lin_fold, dot_append _ _ _ _ (by omega)]; simp
        have cN : (E.linearCombRand (N ++ [(R.r : Int)]) (X ++ [1]) : ZMod E.q) = (dot N X + R.r : Int) := by
          unfold Env.linearCombRand
          rw [lin_fold, dot_append _ _ _ _ (by omega)]; simp
        constructor
        · unfold Env.openCheck
          rw [beq_iff_eq]
          unfold Env.mul linearCombCom
          rw [zsmul_congr (hord E.g) cN, zsmul_congr (hord E.h) cR]
          have := comb E.g E.h (N ++ [(R.r : Int)]) (R.rnds ++ [R.rndR]) (X ++ [1]) 0 (by simp; omega)
          rw [List.zipWith_append (by omega), dot_append _ _ _ _ (by omega), dot_append _ _ _ _ (by omega)] at this
          simpa using this
        · have hZ : (0 : Int) < E.q := by exact_mod_cast hq
          apply eq_of_cast (lin_range hq _ _ hrm) ⟨Int.emod_nonneg _ hZ.ne', Int.emod_lt_of_pos _ hZ⟩
          rw [cast_mod]
          unfold Env.linearKey
          rw [lin_fold, hm, dot_mac]
          push_cast
          rw [lin_fold, cN, hN]
          push_cast
          ring
      · unfold Env.openRecv
        simp only [e4, e1, strncmpEq_refl, Bool.and_self]
  obtain ⟨out, h1, h2, h3, h4, h5⟩ := hrun
  refine ⟨out, h1, h2, h3, h4, ?_, ?_⟩
  · rw [h5]; simp; omega
  · intro i rnd hi
    have hi' : i < R.rnds.length := (List.getElem?_eq_some_iff.mp hi).1
    rw [h5]
    refine ⟨E.mul (bitsNat (((ps.map (·.2)).drop (i * bs)).take bs)) rnd, ?_, beq_self_eq_true _⟩
    · rw [List.getElem?_zipWith, hi, List.getElem?_map]
      simp only [chunks, List.getElem?_map, List.getElem?_range (show i < (ps.length + bs - 1) / bs by omega), Option.map_some]
      simp [List.map_drop, List.map_take]

/-- `batch_size = 0` passes the check `2^bs - 1 < q` and divides by zero. -/
theorem C35_batch_zero (E : Env G) (hq : 0 < E.q) (keySends : Bool) (bDelta : Block) (keys macs : List Block) (R : Rand) :
    E.run keySends bDelta keys macs 0 R = .error (.ub "division by zero") := by
  have : ¬ bsInt 0 ≥ E.q := by
    have : bsInt 0 = 0 := by decide
    rw [this]
    exact_mod_cast Nat.not_le.mpr hq
  unfold Env.run batchCheck
  simp only [if_neg this, if_true, bind, Except.bind]

/-- A batch size is refused in particular when it fits an `int` and `2^bs - 1 ≥ q`. -/
theorem C35_batch_refused (E : Env G) (keySends : Bool) (bDelta : Block) (keys macs : List Block) (R : Rand) (bs : Nat)
    (h31 : bs < 2 ^ 31) (h : E.q ≤ 2 ^ bs - 1) :
    E.run keySends bDelta keys macs bs R = .error (.error "batch size is too large!") := by
  have e : toInt32 bs = bs := by
    unfold toInt32
    rw [Nat.mod_eq_of_lt (by omega)]
    simp only [h31, if_true]
  have e2 : bsInt bs = 2 ^ bs - 1 := by
    unfold bsInt
    rw [e, if_neg (by omega)]
    simp
  have : (E.q : Int) ≤ 2 ^ bs - 1 := by
    have := Nat.two_pow_pos bs
    have h' : E.q + 1 ≤ 2 ^ bs := by omega
    have : ((E.q + 1 : Nat) : Int) ≤ ((2 ^ bs : Nat) : Int) := by exact_mod_cast h'
    push_cast at this
    omega
  unfold Env.run batchCheck
  simp only [e2, bind, Except.bind]
  rw [if_pos this]

/-- The check is on the argument truncated to an `int`: `2^32` (truncated to 0) and `2^31` (negative) pass for every `q`. -/
theorem C35_batch_truncated (q : Nat) (hq : 0 < q) : batchCheck q (2 ^ 32) = .ok () ∧ batchCheck q (2 ^ 31) = .ok () := by
  have h1 : bsInt (2 ^ 32) = 0 := by norm_num [bsInt, toInt32]
  have h2 : bsInt (2 ^ 31) = -1 := by norm_num [bsInt, toInt32]
  unfold batchCheck
  rw [h1, h2]
  constructor
  · rw [if_neg (by omega), if_neg (by norm_num)]
  · rw [if_neg (by omega), if_neg (by norm_num)]

/-- If a batch size larger than the number of bits passes the check, the loop reads beyond `exp` as soon as there are more
bits than in `q`. -/
theorem C35_batch_out_of_range (E : Env G) (hq : 0 < E.q) (keySends : Bool) (bDelta : Block) (keys macs : List Block) (bs : Nat)
    (hbs : batchCheck E.q bs = .ok ()) (R : Rand)
    (ha : R.aDelta < E.q) (hr : R.r < E.q) (h1 : numBits E.q < keys.length) (h2 : keys.length ≤ bs) :
    E.run keySends bDelta keys macs bs R = .error (.ub "exp[j] out of range") := by
  obtain ⟨rKEY, rMAC, em, -, -⟩ := mask_ok E hq keySends R ha hr
  have hc : chunks bs (keys.map E.H) = [keys.map E.H] := by
    have : ((keys.map E.H).length + bs - 1) / bs = 1 := by
      rw [List.length_map]
      exact Nat.div_eq_of_lt_le (by omega) (by omega)
    unfold chunks
    rw [this]
    simp only [List.range_one, List.map_cons, List.map_nil, Nat.zero_mul, List.drop_zero]
    rw [List.take_of_length_le (by rw [List.length_map]; exact h2)]
  have hs : E.chunkSum (keys.map E.H) = .error (.ub "exp[j] out of range") := by
    unfold Env.chunkSum
    rw [if_pos (by rw [List.length_map]; omega)]
  unfold Env.run
  simp only [hbs, em, Env.convert, hc, List.mapM_cons, hs, bind, Except.bind]

/-! ### C36 -/

/-- What `strncmp` compares: equality, or equality up to and including a common zero byte. -/
theorem strncmpEq_iff : ∀ (a b : List Byte), a.length = b.length →
    (strncmpEq a b = true ↔ a = b ∨ ∃ k, a.take k = b.take k ∧ a[k]? = some 0 ∧ b[k]? = some 0)
  | [], [], _ => by simp [strncmpEq]
  | x :: a, y :: b, h => by
    unfold strncmpEq
    by_cases hxy : x = y
    · subst hxy
      simp only [ne_eq, not_true_eq_false, if_false]
      by_cases hx : x = 0
      · subst hx
        simp only [if_true, true_iff]
        exact Or.inr ⟨0, rfl, rfl, rfl⟩
      · rw [if_neg hx, strncmpEq_iff a b (by simpa using h)]
        constructor
        · rintro (rfl | ⟨k, h1, h2, h3⟩)
          · exact Or.inl rfl
          · exact Or.inr ⟨k + 1, by simp [h1], by simpa using h2, by simpa using h3⟩
        · rintro (e | ⟨k, h1, h2, h3⟩)
          · exact Or.inl (List.cons.inj e).2
          · cases k with
            | zero => simp at h2; exact absurd h2 hx
            | succ k => exact Or.inr ⟨k, by simpa using h1, by simpa using h2, by simpa using h3⟩
    · simp only [ne_eq, hxy, not_false_eq_true, if_true, Bool.false_eq_true, List.cons.injEq, false_and, false_or, false_iff]
      rintro ⟨k, h1, h2, h3⟩
      cases k with
      | zero => simp at h2 h3; exact hxy (h2.trans h3.symm)
      | succ k => simp at h1; exact hxy h1.1

/-- The opened values, as the receiver recomputes the messages from them. -/
def keysFrom (bDelta : Block) (macs : List Block) : List Block := macs.map fun m => if m.getLsbD 0 then m ^^^ bDelta else m

/-- The message the sender sends for a key. -/
def msgFrom (E : Env G) (bDelta : Block) (aDelta : Nat) (k : Block) : Nat :=
  ((E.H (k ^^^ bDelta) + E.H k + aDelta) % E.q).toNat

/-- C36 for stored digests without a zero byte: `open` accepts exactly if the digest of the opened `(seed, bDelta, aDelta)`
is the committed one and the digest of the messages recomputed from them is the stored one. -/
theorem C36_open_partial (E : Env G) (hh : ∀ l, (E.hash l).length = 32) (com msgCom : List Byte) (l1 : com.length = 32)
    (l2 : msgCom.length = 32) (z1 : 0 ∉ com) (z2 : 0 ∉ msgCom) (seed bDelta : Block) (aDelta : Nat) (macs : List Block) :
    E.openRecv com msgCom seed bDelta aDelta macs = true ↔
      E.hash (blockBytes seed ++ blockBytes bDelta ++ u32 (bn2bin aDelta).length ++ bn2bin aDelta) = com
      ∧ E.hash ((keysFrom bDelta macs).flatMap fun k => bn2bin (msgFrom E bDelta aDelta k)) = msgCom := by
  have key : ∀ a b : List Byte, a.length = b.length → 0 ∉ b → (strncmpEq a b = true ↔ a = b) := by
    intro a b h hz
    rw [strncmpEq_iff a b h]
    constructor
    · rintro (e | ⟨k, -, -, h3⟩)
      · exact e
      · exact absurd (List.mem_of_getElem? h3) hz
    · exact Or.inl
  unfold Env.openRecv
  rw [Bool.and_eq_true, key _ _ (by rw [Env.computeHash, hh, l1]) z1, key _ _ (by rw [hh, l2]) z2]
  simp only [Env.computeHash, Env.convert, msgBytes, List.flatMap_map, keysFrom, msgFrom]

/-- Binding, for a committed digest without a zero byte: whoever opens a commitment to `(seed, bDelta, aDelta)` to other
values exhibits a collision of the hash function. -/
theorem C36_binding_partial (E : Env G) (hh : ∀ l, (E.hash l).length = 32) (seed bDelta seed' bDelta' : Block)
    (aDelta aDelta' : Nat) (msgCom : List Byte) (l2 : msgCom.length = 32) (macs : List Block)
    (z1 : 0 ∉ E.computeHash seed bDelta aDelta) (z2 : 0 ∉ msgCom)
    (h : E.openRecv (E.computeHash seed bDelta aDelta) msgCom seed' bDelta' aDelta' macs = true) :
    (seed' = seed ∧ bDelta' = bDelta ∧ aDelta' = aDelta) ∨ ∃ x y, x ≠ y ∧ E.hash x = E.hash y := by
  have e := ((C36_open_partial E hh _ msgCom (hh _) l2 z1 z2 seed' bDelta' aDelta' macs).mp h).1
  by_cases hx : blockBytes seed' ++ blockBytes bDelta' ++ u32 (bn2bin aDelta').length ++ bn2bin aDelta'
      = blockBytes seed ++ blockBytes bDelta ++ u32 (bn2bin aDelta).length ++ bn2bin aDelta
  · left
    have h1 := List.append_inj hx (by simp [u32])
    have h2 := List.append_inj h1.1 (by simp)
    have h3 := List.append_inj h2.1 (by simp)
    refine ⟨?_, ?_, bn2bin_inj h1.2⟩
    · rw [← Lemmas.blockOfBytes_blockBytes seed', h3.1, Lemmas.blockOfBytes_blockBytes]
    · rw [← Lemmas.blockOfBytes_blockBytes bDelta', h3.2, Lemmas.blockOfBytes_blockBytes]
  · exact Or.inr ⟨_, _, hx, e⟩

/-- C36 does not hold in general: a stored digest that starts with a zero byte (one seed in 256 gives one) is matched by the
opening of any other values whose digest starts with a zero byte. -/
theorem C36_zero_byte (E : Env G) (t t' : List Byte) (seed bDelta seed' bDelta' : Block) (aDelta aDelta' : Nat)
    (h1 : E.computeHash seed bDelta aDelta = 0 :: t) (h2 : E.computeHash seed' bDelta' aDelta' = 0 :: t') :
    E.openRecv (E.computeHash seed bDelta aDelta) (E.hash []) seed' bDelta' aDelta' [] = true := by
  simp [Env.openRecv, h1, h2, strncmpEq, Env.convert, msgBytes, strncmpEq_refl]

end main

section examples

/-- The additive group of order 251. -/
def exEnv : Env (ZMod 251) where
  q := 251
  g := 1
  h := 5
  ccrh := fun b => b * b + 12345#128
  hash := fun l => (List.range 32).map fun i => BitVec.ofNat 8 (1 + (l.foldl (fun a b => 31 * a + b.toNat) i) % 255)
  chi := fun l i => (l.foldl (fun a b => 31 * a + b.toNat) i) % 251
  enc := fun P => [BitVec.ofNat 8 P.val]
  dec := fun l => some (((l.headD 0).toNat : Nat) : ZMod 251)

/-- The hypotheses of C35: thirteen bits in chunks of five, with either direction of the OLE. -/
example (keySends : Bool) : ∃ out, exEnv.run keySends 0x8000000000000000000000000000abcd#128
    ([true, false, true, true, true, false, false, true, false, true, true, true, false].mapIdx fun i _ => BitVec.ofNat 128 (2 * i * i + 2))
    ([true, false, true, true, true, false, false, true, false, true, true, true, false].mapIdx fun i b =>
      BitVec.ofNat 128 (2 * i * i + 2) ^^^ (if b then 0x8000000000000000000000000000abcd#128 else 0)) 5
    ⟨77, 5, 200, [1, 2, 250], 9, 3, 77, fun i => BitVec.ofNat 128 (i * i + 5)⟩ = .ok out
    ∧ out.sendOk = true ∧ out.recvOk = true ∧ ∃ c, out.comR[1]? = some c ∧ exEnv.openCheck c 2 20 = true := by
  obtain ⟨out, h1, h2, h3, -, -, h5⟩ := C35_honest_partial exEnv (by decide +kernel) (by decide +kernel) keySends
    0x8000000000000000000000000000abcd#128 (by decide +kernel)
    ([true, false, true, true, true, false, false, true, false, true, true, true, false].mapIdx fun i b => (BitVec.ofNat 128 (2 * i * i + 2), b))
    (by decide +kernel) 5 (by decide) (by decide) (by decide)
    ⟨77, 5, 200, [1, 2, 250], 9, 3, 77, fun i => BitVec.ofNat 128 (i * i + 5)⟩ (by decide) (by decide) (by decide)
  exact ⟨out, h1, h2, h3, h5 1 2 rfl⟩

/-- An out of range read: nine bits, modulus of eight bits, batch size `2^32`. -/
example : exEnv.run true 1 (List.replicate 9 4#128) (List.replicate 9 4#128) (2 ^ 32)
    ⟨77, 5, 200, [1], 9, 3, 77, fun i => BitVec.ofNat 128 (i * i + 5)⟩ = .error (.ub "exp[j] out of range") :=
  C35_batch_out_of_range exEnv (by decide) _ _ _ _ _ (C35_batch_truncated 251 (by decide)).1 _ (by decide) (by decide)
    (by decide +kernel) (by rw [List.length_replicate]; norm_num)

/-- The hypotheses of C36: digests without a zero byte, accepted and refused. -/
example : 0 ∉ exEnv.computeHash 3 5 77 ∧ 0 ∉ exEnv.hash []
    ∧ exEnv.openRecv (exEnv.computeHash 3 5 77) (exEnv.hash []) 3 5 77 [] = true
    ∧ exEnv.openRecv (exEnv.computeHash 3 5 77) (exEnv.hash []) 4 5 77 [] = false := by decide +kernel

/-- A hash function with which the acceptance of different values happens, for different digests. -/
example : ∃ (E : Env (ZMod 251)) (msgCom : List Byte),
    E.computeHash 3 5 77 ≠ E.computeHash 4 6 78
    ∧ E.openRecv (E.computeHash 3 5 77) msgCom 4 6 78 [] = true :=
  ⟨{ exEnv with hash := fun l => 0 :: exEnv.hash l }, 0 :: exEnv.hash [], by decide +kernel, by decide +kernel⟩

end examples

end Verif.Props.ComConv
