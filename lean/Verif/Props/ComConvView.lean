import Verif.Props.ComConvParty

set_option linter.unusedSectionVars false

/-!
C60: what a verifier that follows `com_conv.h` learns about the authenticated bits.

`compute_com_recv` draws `rnds`, `r` and `rnd_r` uniformly below the order `q` (`BN_rand_range`); they are elements of `ZMod q` here.  `h` generates the group (a group of prime
order, `h` not the point at infinity), so `g` is a multiple `w` of `h`; `w` is used in the proof only, nobody needs to know it.
-/

namespace Verif.Props.ComConv
open Verif.Model Integer SHA Network Verif.Model.ComConv

variable {G : Type} [AddCommGroup G] [DecidableEq G]

/-- The randomness of the prover for `n` chunks. -/
structure Coins (q n : Nat) where
  rnds : Fin n → ZMod q
  r : ZMod q
  rndR : ZMod q

@[ext] theorem Coins.ext' {q n : Nat} {x y : Coins q n} (h1 : x.rnds = y.rnds) (h2 : x.r = y.r) (h3 : x.rndR = y.rndR) : x = y := by
  cases x; cases y; simp_all

/-- `compute_com_recv` of a prover with keys and bits `ps` and coins `x`; the MAC of `r` is the one that fits the verifier's key `rKEY` (C21). -/
def prover (E : Env G) (bDelta : Block) (aDelta : Nat) (rKEY : Int) (bs : Nat) (ySeed : Block) (m : FromSend) (ps : List (Block × Bool)) {n : Nat}
    (x : Coins E.q n) : Res (RecvOut G) :=
  E.recvSide (ps.map fun p => p.1 ^^^ (if p.2 then bDelta else 0)) bs ((rKEY + x.r.val * aDelta) % E.q) x.r.val
    (List.ofFn fun i => ((x.rnds i).val : Int)) x.rndR.val ySeed m

/-- Hiding of one commitment: another number with other randomness. -/
theorem mul_move (E : Env G) [NeZero E.q] (hord : ∀ P : G, E.q • P = 0) (w : ZMod E.q) (hw : E.g = w.val • E.h) (m m' : Int) (s : ZMod E.q) :
    E.mul m' ((s + w * (m - m')).val : Int) = E.mul m (s.val : Int) := by
  unfold Env.mul
  rw [hw, ← natCast_zsmul, ← mul_zsmul, ← mul_zsmul, ← add_zsmul, ← add_zsmul]
  apply zsmul_congr (hord E.h)
  push_cast
  simp only [ZMod.natCast_zmod_val]
  ring

/-- **C60, one commitment.**  `PedersenComm::commit` of any two numbers gives the same point for randomness that differs by a translation. -/
theorem C60_commit (E : Env G) [Fact E.q.Prime] (hord : ∀ P : G, E.q • P = 0) (w : ZMod E.q) (hw : E.g = w.val • E.h) (m m' : Int) :
    ∃ f : ZMod E.q ≃ ZMod E.q, ∀ s, E.mul m' ((f s).val : Int) = E.mul m (s.val : Int) :=
  ⟨Equiv.addRight (w * (m - m')), fun s => mul_move E hord w hw m m' s⟩

section
variable (E : Env G) (bs : Nat) (m : FromSend) (n : Nat)

def numbers (ps : List (Block × Bool)) (i : Fin n) : Int := chunkVal bs (ps.map (·.2)) i

def points (ps : List (Block × Bool)) (x : Coins E.q n) : List G := List.ofFn fun i => E.mul (numbers bs n ps i) ((x.rnds i).val : Int)

def pointR (x : Coins E.q n) : G := E.mul (x.r.val : Int) (x.rndR.val : Int)

def coef (ps : List (Block × Bool)) (x : Coins E.q n) : List Int :=
  E.coefs m.com (E.hash m.msgs.flatten) ((points E bs n ps x).map E.enc) (E.enc (pointR E n x)) n

/-- The combination of the differences of the numbers. -/
def gapSum (ps ps' : List (Block × Bool)) (x : Coins E.q n) : ZMod E.q :=
  ∑ i : Fin n, ((coef E bs m n ps x).getD i 0 : ZMod E.q) * ((numbers bs n ps i : ZMod E.q) - numbers bs n ps' i)

/-- The coins with which the prover with bits `ps'` sends what the one with bits `ps` sends with `x`. -/
def turn (w : ZMod E.q) (ps ps' : List (Block × Bool)) (x : Coins E.q n) : Coins E.q n :=
  ⟨fun i => x.rnds i + w * ((numbers bs n ps i : ZMod E.q) - numbers bs n ps' i), x.r + gapSum E bs m n ps ps' x,
    x.rndR - w * gapSum E bs m n ps ps' x⟩

variable [NeZero E.q] (hord : ∀ P : G, E.q • P = 0) (w : ZMod E.q) (hw : E.g = w.val • E.h)
include hord hw

theorem points_turn (ps ps' : List (Block × Bool)) (x : Coins E.q n) : points E bs n ps' (turn E bs m n w ps ps' x) = points E bs n ps x := by
  unfold points
  congr 1
  funext i
  exact mul_move E hord w hw _ _ _

theorem pointR_turn (ps ps' : List (Block × Bool)) (x : Coins E.q n) : pointR E n (turn E bs m n w ps ps' x) = pointR E n x := by
  unfold pointR turn
  have := mul_move E hord w hw x.r.val ((x.r + gapSum E bs m n ps ps' x).val : Int) x.rndR
  rw [← this]
  congr 3
  push_cast
  simp only [ZMod.natCast_zmod_val]
  ring

theorem coef_turn (ps ps' : List (Block × Bool)) (x : Coins E.q n) : coef E bs m n ps' (turn E bs m n w ps ps' x) = coef E bs m n ps x := by
  unfold coef
  rw [points_turn E bs m n hord w hw, pointR_turn E bs m n hord w hw]

theorem gapSum_turn (ps ps' : List (Block × Bool)) (x : Coins E.q n) :
    gapSum E bs m n ps' ps (turn E bs m n w ps ps' x) = - gapSum E bs m n ps ps' x := by
  unfold gapSum
  rw [coef_turn E bs m n hord w hw, ← Finset.sum_neg_distrib]
  apply Finset.sum_congr rfl
  intro i _
  ring

theorem turn_turn (ps ps' : List (Block × Bool)) (x : Coins E.q n) : turn E bs m n w ps' ps (turn E bs m n w ps ps' x) = x := by
  have h := gapSum_turn E bs m n hord w hw ps ps' x
  apply Coins.ext'
  · funext i
    show x.rnds i + w * _ + w * _ = _
    ring
  · show x.r + _ + gapSum E bs m n ps' ps (turn E bs m n w ps ps' x) = _
    rw [h]; ring
  · show x.rndR - _ - w * gapSum E bs m n ps' ps (turn E bs m n w ps ps' x) = _
    rw [h]; ring

end

theorem linearCombRand_range (E : Env G) (hq : 0 < E.q) (l c : List Int) : 0 ≤ E.linearCombRand l c ∧ E.linearCombRand l c < E.q :=
  lin_range hq _ 0 ⟨le_rfl, by exact_mod_cast hq⟩

theorem linearCombRand_cast (E : Env G) (n : Nat) (v : Fin n → Int) (a : Int) (X : List Int) (hX : X.length = n) :
    (E.linearCombRand (List.ofFn v ++ [a]) (X ++ [1]) : ZMod E.q) = (∑ i : Fin n, (X.getD i 0 : ZMod E.q) * v i) + a := by
  rw [Env.linearCombRand, lin_fold, dot_append _ _ _ _ (by simp [hX]), dot_fin n _ _ (by simp) hX]
  push_cast
  rw [zero_add, mul_one]
  congr 1
  apply Finset.sum_congr rfl
  intro i _
  rw [mul_comm]
  congr 2
  simp [List.getD_eq_getElem?_getD]

/-- What the prover sends, by fields. -/
theorem prover_eq (E : Env G) (bDelta : Block) (hd : bDelta.getLsbD 0 = true) (aDelta : Nat) (rKEY : Int) (bs : Nat) (hb : 0 < bs) (h31 : bs < 2 ^ 31)
    (hbs : 2 ^ bs ≤ E.q) (ySeed : Block) (m : FromSend) (ps : List (Block × Bool)) (hk : ∀ p ∈ ps, p.1.getLsbD 0 = false)
    (hm : m.msgs.length = ps.length) (hs : ∀ l ∈ m.msgs, l.length ≤ 1000)
    (n : Nat) (hn : n = (ps.length + bs - 1) / bs) (x : Coins E.q n) :
    ∃ out, prover E bDelta aDelta rKEY bs ySeed m ps x = .ok out ∧ out.coms = points E bs n ps x ∧ out.chi = coef E bs m n ps x
      ∧ out.sent.points = (points E bs n ps x).map E.enc ∧ out.sent.pointR = E.enc (pointR E n x) ∧ out.sent.ySeed = ySeed
      ∧ out.sent.yCom = E.hash (blockBytes ySeed ++ bn2bin out.sent.yMAC.toNat)
      ∧ out.sent.rndY = E.linearCombRand ((List.ofFn fun i => ((x.rnds i).val : Int)) ++ [(x.rndR.val : Int)]) (coef E bs m n ps x ++ [1])
      ∧ out.sent.msgY = E.linearCombRand (List.ofFn (numbers bs n ps) ++ [(x.r.val : Int)]) (coef E bs m n ps x ++ [1])
      ∧ (0 ≤ out.sent.yMAC ∧ out.sent.yMAC < E.q) := by
  have hq : 0 < E.q := lt_of_lt_of_le (Nat.two_pow_pos bs) hbs
  have hZ : (0 : Int) < E.q := by exact_mod_cast hq
  have e3 : (ps.map fun p => p.1 ^^^ (if p.2 then bDelta else 0)).map (fun m => m.getLsbD 0) = ps.map (·.2) := by
    rw [List.map_map]
    exact List.map_congr_left fun p hp => mac_lsb hd (hk p hp)
  have eN : ((chunks bs (ps.map (·.2))).map fun c => (bitsNat c : Int)) = List.ofFn (numbers bs n ps) := by
    apply List.ext_getElem
    · simp [chunks_length, hn]
    · intro i g1 g2
      simp [chunks, numbers, chunkVal]
  have eP : List.zipWith (fun m rnd => E.mul m rnd) (List.ofFn (numbers bs n ps)) (List.ofFn fun i => ((x.rnds i).val : Int)) = points E bs n ps x := by
    apply List.ext_getElem
    · simp [points]
    · intro i g1 g2
      simp [points]
  have h := recv_eq E (ps.map fun p => p.1 ^^^ (if p.2 then bDelta else 0)) bs hb h31 hbs ((rKEY + x.r.val * aDelta) % E.q) x.r.val
    (List.ofFn fun i => ((x.rnds i).val : Int)) x.rndR.val ySeed m (by simpa using hm) hs
  simp only [e3, eN, eP, List.length_map, ← hn] at h
  refine ⟨_, h, rfl, rfl, rfl, rfl, rfl, rfl, rfl, rfl, ?_⟩
  exact lin_range hq _ _ ⟨Int.emod_nonneg _ hZ.ne', Int.emod_lt_of_pos _ hZ⟩

theorem honestMsgs_keys (E : Env G) (bDelta : Block) (aDelta : Nat) (ps ps' : List (Block × Bool)) (h : ps'.map (·.1) = ps.map (·.1)) :
    honestMsgs E bDelta aDelta ps' = honestMsgs E bDelta aDelta ps := by
  have : ∀ l : List (Block × Bool), honestMsgs E bDelta aDelta l = (l.map (·.1)).map fun k => bn2bin (honestMsg E bDelta aDelta k) := by
    intro l; simp [honestMsgs]
  rw [this, this, h]

/-- **C60.**  For a verifier that sends the numbers of the protocol, any two lists of bits under the same keys: the coins of the prover with the first bits go one-to-one to coins of
the prover with the second bits with which it sends the same, message for message (commitments, opening, hash, MAC). -/
theorem C60_hiding (E : Env G) [Fact E.q.Prime] (hord : ∀ P : G, E.q • P = 0) (w : ZMod E.q) (hw : E.g = w.val • E.h)
    (bDelta : Block) (hd : bDelta.getLsbD 0 = true) (aDelta : Nat) (rKEY : Int) (bs : Nat) (hb : 0 < bs) (h31 : bs < 2 ^ 31)
    (hbs : 2 ^ bs ≤ E.q) (ySeed : Block) (ps ps' : List (Block × Bool)) (hk : ∀ p ∈ ps, p.1.getLsbD 0 = false) (hps : ps'.map (·.1) = ps.map (·.1))
    (m : FromSend) (hm : m.msgs = honestMsgs E bDelta aDelta ps) (hs : ∀ l ∈ m.msgs, l.length ≤ 1000)
    (n : Nat) (hn : n = (ps.length + bs - 1) / bs) :
    ∃ f : Coins E.q n ≃ Coins E.q n, ∀ x, ∃ out out', prover E bDelta aDelta rKEY bs ySeed m ps x = .ok out
      ∧ prover E bDelta aDelta rKEY bs ySeed m ps' (f x) = .ok out' ∧ out'.sent = out.sent ∧ out'.coms = out.coms := by
  have hq : 0 < E.q := lt_of_lt_of_le (Nat.two_pow_pos bs) hbs
  have : NeZero E.q := ⟨hq.ne'⟩
  have hl : ps'.length = ps.length := by simpa using congrArg List.length hps
  have hk' : ∀ p ∈ ps', p.1.getLsbD 0 = false := by
    intro p hp
    have : p.1 ∈ ps.map (·.1) := by rw [← hps]; exact List.mem_map_of_mem hp
    obtain ⟨p', h1, h2⟩ := List.mem_map.1 this
    rw [← h2]; exact hk p' h1
  have hml : m.msgs.length = ps.length := by rw [hm]; simp [honestMsgs]
  refine ⟨⟨turn E bs m n w ps ps', turn E bs m n w ps' ps, turn_turn E bs m n hord w hw ps ps', turn_turn E bs m n hord w hw ps' ps⟩, fun x => ?_⟩
  show ∃ out out', _ ∧ prover E bDelta aDelta rKEY bs ySeed m ps' (turn E bs m n w ps ps' x) = .ok out' ∧ _
  obtain ⟨out, o1, o2, o3, o4, o5, o6, o7, o8, o9, o10⟩ := prover_eq E bDelta hd aDelta rKEY bs hb h31 hbs ySeed m ps hk hml hs n hn x
  obtain ⟨out', p1, p2, p3, p4, p5, p6, p7, p8, p9, p10⟩ := prover_eq E bDelta hd aDelta rKEY bs hb h31 hbs ySeed m ps' hk' (by omega) hs n (by rw [hl]; exact hn)
    (turn E bs m n w ps ps' x)
  rw [coef_turn E bs m n hord w hw] at p3 p8 p9
  rw [points_turn E bs m n hord w hw] at p2 p4
  rw [pointR_turn E bs m n hord w hw] at p5
  have lX : (coef E bs m n ps x).length = n := by simp [coef, Env.coefs]
  have hrnd : out'.sent.rndY = out.sent.rndY := by
    rw [p8, o8]
    apply eq_of_cast (linearCombRand_range E hq _ _) (linearCombRand_range E hq _ _)
    rw [linearCombRand_cast E n _ _ _ lX, linearCombRand_cast E n _ _ _ lX]
    simp only [turn, Int.cast_natCast, ZMod.natCast_zmod_val, gapSum, mul_add, Finset.sum_add_distrib, Finset.mul_sum]
    have : ∀ i : Fin n, ((coef E bs m n ps x).getD i 0 : ZMod E.q) * (w * ((numbers bs n ps i : ZMod E.q) - numbers bs n ps' i))
        = w * (((coef E bs m n ps x).getD i 0 : ZMod E.q) * ((numbers bs n ps i : ZMod E.q) - numbers bs n ps' i)) := fun i => by ring
    simp only [this]
    ring
  have hmsg : out'.sent.msgY = out.sent.msgY := by
    rw [p9, o9]
    apply eq_of_cast (linearCombRand_range E hq _ _) (linearCombRand_range E hq _ _)
    rw [linearCombRand_cast E n _ _ _ lX, linearCombRand_cast E n _ _ _ lX]
    simp only [turn, Int.cast_natCast, ZMod.natCast_zmod_val, gapSum, mul_sub, Finset.sum_sub_distrib]
    ring
  have zero : ∀ (qs : List (Block × Bool)) (y : Coins E.q n) (o : RecvOut G), (∀ p ∈ qs, p.1.getLsbD 0 = false) → m.msgs = honestMsgs E bDelta aDelta qs →
      prover E bDelta aDelta rKEY bs ySeed m qs y = .ok o → seen E bs aDelta rKEY (qs.map (·.1)) o = 0 := by
    intro qs y o hkq hmq ho
    rw [C51_deviation E bDelta hd aDelta qs hkq bs hb h31 hbs rKEY _ y.r.val (by rw [cast_mod]; push_cast; rfl) _ _ ySeed m o ho]
    apply Finset.sum_eq_zero
    intro k _
    rw [tamper_zero E bDelta aDelta qs m.msgs k (by rw [hmq]), mul_zero]
  have hmac : out'.sent.yMAC = out.sent.yMAC := by
    apply eq_of_cast p10 o10
    have z := zero ps x out hk hm o1
    have z' := zero ps' _ out' hk' (by rw [hm, honestMsgs_keys E bDelta aDelta ps ps' hps]) p1
    unfold seen at z z'
    rw [hps, p3, hmsg] at z'
    rw [o3] at z
    rw [sub_eq_zero] at z z'
    rw [z, z']
  refine ⟨out, out', o1, p1, ?_, by rw [p2, o2]⟩
  rcases hso : out.sent with ⟨a1, a2, a3, a4, a5, a6, a7⟩
  rcases hsp : out'.sent with ⟨b1, b2, b3, b4, b5, b6, b7⟩
  rw [hso] at o4 o5 o6 o7 hrnd hmsg hmac
  rw [hsp] at p4 p5 p6 p7 hrnd hmsg hmac
  dsimp only at *
  subst hrnd hmsg hmac
  rw [p4, o4, p5, o5, p6, o6, p7, o7]

/-- The hypotheses are met: another bit in each of the thirteen positions is hidden. -/
example : ∃ (m : FromSend) (f : Coins exEnv.q 3 ≃ Coins exEnv.q 3), ∀ x, ∃ out out', prover exEnv exDelta 77 10 5 3 m exPs x = .ok out
    ∧ prover exEnv exDelta 77 10 5 3 m (exPs.map fun p => (p.1, !p.2)) (f x) = .ok out' ∧ out'.sent = out.sent ∧ out'.coms = out.coms := by
  have : Fact (exEnv.q.Prime) := fact251
  obtain ⟨w, hw⟩ : ∃ w : ZMod 251, exEnv.g = w.val • exEnv.h := by decide +kernel
  exact ⟨⟨exEnv.computeHash 5 exDelta 77, honestMsgs exEnv exDelta 77 exPs, 5, exDelta, 77⟩,
    C60_hiding exEnv (by change ∀ P : ZMod 251, 251 • P = 0; decide +kernel) w hw exDelta (by decide +kernel) 77 10 5 (by decide) (by decide)
      (show 2 ^ 5 ≤ 251 by decide) 3 exPs _ (by decide +kernel) (by simp) _ rfl (by rw [exMsgs]; decide) 3 (by decide)⟩

end Verif.Props.ComConv
