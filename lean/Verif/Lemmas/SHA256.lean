import Verif.Model.SHA256
import Verif.Lemmas.Encoding

/-! Lock-step simulation of the secret SHA-256 circuit and of the plain compression with FIPS 180-4. -/

namespace Verif.Lemmas
open Verif.Model Verif.Model.Integer Verif.Model.SHA
open Verif.Spec

/-- The 32-bit word of a secret integer. -/
def bv (x : Integer) : BitVec 32 := BitVec.ofNat 32 (val x)

theorem getLsbD_bv (x : Integer) (i : Nat) : (bv x).getLsbD i = (decide (i < 32) && x.getD i false) := by
  rw [bv, BitVec.getLsbD_ofNat, testBit_val]

theorem bv_ofNat (v : Nat) : bv (ofNat 32 v) = BitVec.ofNat 32 v := by
  rw [bv, val_ofNat]
  apply BitVec.eq_of_toNat_eq; simp

theorem ofNat_bv (x : Integer) (h : x.length = 32) : ofNat 32 (bv x).toNat = x := by
  rw [bv, BitVec.toNat_ofNat, ofNat_mod]
  conv_lhs => rw [← h, ofNat_val]

theorem bv_add (x y : Integer) (h : x.length = 32) : bv (add x y) = bv x + bv y := by
  apply BitVec.eq_of_toNat_eq
  simp [bv, Integer.add, h, val_ofNat]

theorem getD_zipWith (f : Bool → Bool → Bool) (hf : f false false = false) (x y : Integer)
    (h : x.length = y.length) (i : Nat) :
    (List.zipWith f x y).getD i false = f (x.getD i false) (y.getD i false) := by
  simp only [List.getD_eq_getElem?_getD, List.getElem?_zipWith]
  by_cases hi : i < x.length
  · have : i < y.length := by omega
    simp [hi, this]
  · have h1 : x.length ≤ i := by omega
    have h2 : y.length ≤ i := by omega
    simp [List.getElem?_eq_none h1, List.getElem?_eq_none h2, hf]

theorem bv_xor (x y : Integer) (h : x.length = y.length) : bv (Integer.xor x y) = bv x ^^^ bv y := by
  apply BitVec.eq_of_getLsbD_eq; intro i hi
  rw [BitVec.getLsbD_xor, getLsbD_bv, getLsbD_bv, getLsbD_bv, Integer.xor, getD_zipWith _ rfl _ _ h]
  simp [hi]

theorem bv_and (x y : Integer) (h : x.length = y.length) : bv (Integer.and x y) = bv x &&& bv y := by
  apply BitVec.eq_of_getLsbD_eq; intro i hi
  rw [BitVec.getLsbD_and, getLsbD_bv, getLsbD_bv, getLsbD_bv, Integer.and, getD_zipWith _ rfl _ _ h]
  simp [hi]

theorem getD_shr (x : Integer) (k i : Nat) : (shr x k).getD i false = x.getD (k + i) false := by
  unfold Integer.shr
  simp only [List.getD_eq_getElem?_getD]
  split
  · rw [List.getElem?_eq_none (by omega : x.length ≤ k + i), List.getElem?_replicate]
    split <;> rfl
  · by_cases hi : i < x.length - k
    · rw [List.getElem?_append_left (by simpa using hi), List.getElem?_drop]
    · rw [List.getElem?_append_right (by simp; omega), List.getElem?_replicate,
        List.getElem?_eq_none (by omega : x.length ≤ k + i)]
      split <;> rfl

theorem getD_shl (x : Integer) (k i : Nat) :
    (shl x k).getD i false = (decide (k ≤ i) && decide (i < x.length) && x.getD (i - k) false) := by
  unfold Integer.shl
  simp only [List.getD_eq_getElem?_getD]
  split
  · rw [List.getElem?_replicate]
    by_cases h1 : k ≤ i
    · have : ¬ i < x.length := by omega
      simp [this]
    · simp only [h1, decide_false, Bool.false_and]; split <;> rfl
  · by_cases h1 : k ≤ i
    · rw [List.getElem?_append_right (by simpa using h1)]
      simp only [List.length_replicate]
      by_cases h2 : i < x.length
      · rw [List.getElem?_take_of_lt (by omega)]; simp [h1, h2]
      · rw [List.getElem?_eq_none (by simp; omega)]; simp [h2]
    · rw [List.getElem?_append_left (by simp; omega), List.getElem?_replicate]
      simp only [h1, decide_false, Bool.false_and]; split <;> rfl

theorem bv_shr (x : Integer) (k : Nat) (h : x.length = 32) : bv (shr x k) = SHA256.shr k (bv x) := by
  apply BitVec.eq_of_getLsbD_eq; intro i hi
  rw [SHA256.shr, BitVec.getLsbD_ushiftRight, getLsbD_bv, getLsbD_bv, getD_shr]
  by_cases hk : k + i < 32
  · simp [hi, hk]
  · simp [hk, List.getD_eq_getElem?_getD, List.getElem?_eq_none (by omega : x.length ≤ k + i)]

theorem bv_rrot (x : Integer) (k : Nat) (h : x.length = 32) (hk : k ≤ 32) :
    bv (rrot x k) = SHA256.rotr k (bv x) := by
  apply BitVec.eq_of_getLsbD_eq; intro i hi
  rw [rrot, bv_xor _ _ (by simp), SHA256.rotr]
  rw [BitVec.getLsbD_xor, BitVec.getLsbD_or, BitVec.getLsbD_ushiftRight, BitVec.getLsbD_shiftLeft]
  rw [getLsbD_bv, getLsbD_bv, getLsbD_bv, getLsbD_bv, getD_shr, getD_shl, h]
  by_cases h1 : k + i < 32
  · have h2 : ¬ (32 - k ≤ i) := by omega
    have h3 : i < 32 - k := by omega
    simp [hi, h1, h2, h3]
  · have h2 : 32 - k ≤ i := by omega
    have h3 : ¬ i < 32 - k := by omega
    have h4 : i - (32 - k) < 32 := by omega
    have h5 : x.getD (k + i) false = false := by
      simp [List.getD_eq_getElem?_getD, List.getElem?_eq_none (by omega : x.length ≤ k + i)]
    rw [h5]; simp [hi, h1, h2, h3, h4]

theorem rrot32_eq (x : BitVec 32) (k : Nat) : rrot32 x k = SHA256.rotr k x := rfl

theorem ch_eq (e f g : BitVec 32) : (e &&& (f ^^^ g)) ^^^ g = SHA256.Ch e f g := by
  unfold SHA256.Ch
  apply BitVec.eq_of_getLsbD_eq; intro i hi
  simp only [BitVec.getLsbD_and, BitVec.getLsbD_xor, BitVec.getLsbD_not, hi, decide_true, Bool.true_and]
  cases e.getLsbD i <;> cases f.getLsbD i <;> cases g.getLsbD i <;> rfl

theorem maj_eq (a b c : BitVec 32) : ((a ^^^ b) &&& (a ^^^ c)) ^^^ a = SHA256.Maj a b c := by
  unfold SHA256.Maj
  apply BitVec.eq_of_getLsbD_eq; intro i hi
  simp only [BitVec.getLsbD_and, BitVec.getLsbD_xor]
  cases a.getLsbD i <;> cases b.getLsbD i <;> cases c.getLsbD i <;> rfl

/-- A list of 32-bit secret words. -/
def W32 (l : List Integer) : Prop := ∀ x ∈ l, x.length = 32

theorem W32.getD {l : List Integer} (h : W32 l) {i : Nat} (hi : i < l.length) : (l.getD i []).length = 32 := by
  rw [List.getD_eq_getElem?_getD, List.getElem?_eq_getElem hi, Option.getD_some]
  exact h _ (List.getElem_mem hi)

theorem bv_nil : bv [] = 0 := rfl

theorem bv_getD (l : List Integer) (i : Nat) : bv (l.getD i []) = (l.map bv).getD i 0 := by
  simp only [List.getD_eq_getElem?_getD, List.getElem?_map]
  cases l[i]? <;> rfl

theorem schedule_spec (chunk : List Integer) (h : W32 chunk) (hl : chunk.length = 16) :
    W32 (schedule chunk) ∧ (schedule chunk).length = 64
      ∧ (schedule chunk).map bv = SHA256.schedule (chunk.map bv) := by
  unfold schedule SHA256.schedule
  rw [List.take_of_length_le (by omega)]
  have key : ∀ n, n ≤ 48 →
      let m := (List.range n).foldl (fun w j =>
        let i := j + 16
        let s0 := Integer.xor (Integer.xor (rrot (w.getD (i - 15) []) 7) (rrot (w.getD (i - 15) []) 18))
          (shr (w.getD (i - 15) []) 3)
        let s1 := Integer.xor (Integer.xor (rrot (w.getD (i - 2) []) 17) (rrot (w.getD (i - 2) []) 19))
          (shr (w.getD (i - 2) []) 10)
        w ++ [add (add (add (w.getD (i - 16) []) s0) (w.getD (i - 7) [])) s1]) chunk
      W32 m ∧ m.length = 16 + n ∧ m.map bv = (List.range n).foldl (fun w j =>
        let t := j + 16
        w ++ [SHA256.sigma1 (w.getD (t-2) 0) + w.getD (t-7) 0 + SHA256.sigma0 (w.getD (t-15) 0)
          + w.getD (t-16) 0]) (chunk.map bv) := by
    intro n
    induction n with
    | zero => intro _; exact ⟨h, by simpa using hl, rfl⟩
    | succ n ih =>
      intro hn
      have ih := ih (by omega)
      rw [List.range_succ, List.foldl_append, List.foldl_append]
      simp only [List.foldl_cons, List.foldl_nil] at ih ⊢
      generalize (List.range n).foldl _ chunk = m at ih ⊢
      obtain ⟨hw, hlen, hm⟩ := ih
      rw [← hm]
      have g15 := hw.getD (i := n + 16 - 15) (by omega)
      have g2 := hw.getD (i := n + 16 - 2) (by omega)
      have g16 := hw.getD (i := n + 16 - 16) (by omega)
      have g7 := hw.getD (i := n + 16 - 7) (by omega)
      refine ⟨?_, by simp; omega, ?_⟩
      · intro x hx
        rcases List.mem_append.1 hx with hx | hx
        · exact hw x hx
        · rw [List.mem_singleton.1 hx]; simp only [length_add]; exact g16
      · rw [List.map_append]
        congr 1
        simp only [List.map_cons, List.map_nil, ← bv_getD]
        generalize m.getD (n + 16 - 15) [] = x15 at g15 ⊢
        generalize m.getD (n + 16 - 2) [] = x2 at g2 ⊢
        generalize m.getD (n + 16 - 16) [] = x16 at g16 ⊢
        generalize m.getD (n + 16 - 7) [] = x7 at g7 ⊢
        rw [bv_add _ _ (by simp [g16]), bv_add _ _ (by simp [g16]), bv_add _ _ g16,
          bv_xor _ _ (by simp), bv_xor _ _ (by simp), bv_xor _ _ (by simp), bv_xor _ _ (by simp),
          bv_rrot _ _ g15 (by omega), bv_rrot _ _ g15 (by omega), bv_rrot _ _ g2 (by omega),
          bv_rrot _ _ g2 (by omega), bv_shr _ _ g15, bv_shr _ _ g2]
        simp only [SHA256.sigma0, SHA256.sigma1]
        congr 1
        ac_rfl
  obtain ⟨a, b, c⟩ := key 48 (by omega)
  exact ⟨a, b, c⟩

/-- Correspondence of the working variables. -/
def workBv (s : Work) : SHA256.Vars :=
  ⟨bv s.a, bv s.b, bv s.c, bv s.d, bv s.e, bv s.f, bv s.g, bv s.h⟩

/-- All working variables are 32 bits wide. -/
structure W8 (s : Work) : Prop where
  a : s.a.length = 32
  b : s.b.length = 32
  c : s.c.length = 32
  d : s.d.length = 32
  e : s.e.length = 32
  f : s.f.length = 32
  g : s.g.length = 32
  h : s.h.length = 32

theorem roundStep_spec (s : Work) (k w : Integer) (hs : W8 s) :
    W8 (roundStep s k w) ∧ workBv (roundStep s k w) = SHA256.round (workBv s) (bv k) (bv w) := by
  obtain ⟨ha, hb, hc, hd, he, hf, hg, hh⟩ := hs
  refine ⟨⟨?_, ha, hb, hc, ?_, he, hf, hg⟩, ?_⟩
  · simp [roundStep, hh]
  · simp [roundStep, hd]
  · unfold workBv roundStep SHA256.round
    have t1 : bv (add (add (add (add s.h k) (Integer.xor (Integer.xor (rrot s.e 6) (rrot s.e 11)) (rrot s.e 25)))
        (Integer.xor (Integer.and s.e (Integer.xor s.f s.g)) s.g)) w)
        = bv s.h + SHA256.Sigma1 (bv s.e) + SHA256.Ch (bv s.e) (bv s.f) (bv s.g) + bv k + bv w := by
      rw [bv_add _ _ (by simp [hh]), bv_add _ _ (by simp [hh]), bv_add _ _ (by simp [hh]), bv_add _ _ hh,
        bv_xor _ _ (by simp), bv_xor _ _ (by simp), bv_rrot _ _ he (by omega), bv_rrot _ _ he (by omega),
        bv_rrot _ _ he (by omega), bv_xor _ _ (by simp [he, hf, hg]), bv_and _ _ (by simp [he, hf, hg]),
        bv_xor _ _ (by simp [hf, hg]), ch_eq]
      simp only [SHA256.Sigma1]
      ac_rfl
    have t2 : bv (add (Integer.xor (Integer.xor (rrot s.a 2) (rrot s.a 13)) (rrot s.a 22))
        (Integer.xor (Integer.and (Integer.xor s.a s.b) (Integer.xor s.a s.c)) s.a))
        = SHA256.Sigma0 (bv s.a) + SHA256.Maj (bv s.a) (bv s.b) (bv s.c) := by
      rw [bv_add _ _ (by simp [ha]), bv_xor _ _ (by simp), bv_xor _ _ (by simp), bv_rrot _ _ ha (by omega),
        bv_rrot _ _ ha (by omega), bv_rrot _ _ ha (by omega), bv_xor _ _ (by simp [ha, hb, hc]),
        bv_and _ _ (by simp [ha, hb, hc]), bv_xor _ _ (by simp [ha, hb]), bv_xor _ _ (by simp [ha, hc]), maj_eq]
      rfl
    simp only
    rw [bv_add _ _ (by simp [hh]), bv_add _ _ hd, t1, t2]

theorem chunkCompress_spec (k h chunk : List Integer) (hk : k.map bv = SHA256.K) (hh : W32 h)
    (hhl : h.length = 8) (hc : W32 chunk) (hcl : chunk.length = 16) :
    W32 (chunkCompress k h chunk) ∧ (chunkCompress k h chunk).length = 8
      ∧ (chunkCompress k h chunk).map bv = SHA256.compress (h.map bv) (chunk.map bv) := by
  obtain ⟨hw, hwl, hwm⟩ := schedule_spec chunk hc hcl
  unfold chunkCompress SHA256.compress
  rw [← hwm]
  simp only
  generalize hs0 : (⟨h.getD 0 [], h.getD 1 [], h.getD 2 [], h.getD 3 [], h.getD 4 [], h.getD 5 [], h.getD 6 [],
    h.getD 7 []⟩ : Work) = s0
  have h0 : W8 s0 := by
    subst hs0
    constructor <;> exact hh.getD (by omega)
  have key : ∀ (n : Nat), W8 ((List.range n).foldl
      (fun s i => roundStep s (k.getD i []) ((schedule chunk).getD i [])) s0)
      ∧ workBv ((List.range n).foldl (fun s i => roundStep s (k.getD i []) ((schedule chunk).getD i [])) s0)
      = (List.range n).foldl (fun s t => SHA256.round s (SHA256.K.getD t 0)
          (((schedule chunk).map bv).getD t 0)) (workBv s0) := by
    intro n
    induction n with
    | zero => exact ⟨h0, rfl⟩
    | succ n ih =>
      rw [List.range_succ, List.foldl_append, List.foldl_append]
      simp only [List.foldl_cons, List.foldl_nil]
      obtain ⟨i1, i2⟩ := ih
      obtain ⟨r1, r2⟩ := roundStep_spec _ (k.getD n []) ((schedule chunk).getD n []) i1
      refine ⟨r1, ?_⟩
      rw [r2, i2, bv_getD, bv_getD, hk]
  obtain ⟨k1, k2⟩ := key 64
  have hv : (⟨(h.map bv).getD 0 0, (h.map bv).getD 1 0, (h.map bv).getD 2 0, (h.map bv).getD 3 0,
      (h.map bv).getD 4 0, (h.map bv).getD 5 0, (h.map bv).getD 6 0, (h.map bv).getD 7 0⟩ : SHA256.Vars)
      = workBv s0 := by
    subst hs0
    simp only [workBv, bv_getD]
  rw [hv, ← k2]
  generalize (List.range 64).foldl (fun s i => roundStep s (k.getD i []) ((schedule chunk).getD i [])) s0 = s
    at k1
  obtain ⟨a0, b0, c0, d0, e0, f0, g0, h0'⟩ := h0
  obtain ⟨a1, b1, c1, d1, e1, f1, g1, h1⟩ := k1
  refine ⟨?_, rfl, ?_⟩
  · intro x hx
    simp only [List.mem_cons, List.not_mem_nil, or_false] at hx
    rcases hx with rfl | rfl | rfl | rfl | rfl | rfl | rfl | rfl <;> simp [*]
  · simp only [List.map_cons, List.map_nil, workBv]
    rw [bv_add _ _ a1, bv_add _ _ b1, bv_add _ _ c1, bv_add _ _ d1, bv_add _ _ e1, bv_add _ _ f1, bv_add _ _ g1,
      bv_add _ _ h1]
    simp only [bv_getD]

/-! ### The plain compression function -/

theorem plainSchedule_spec (m : List (BitVec 32)) : plainSchedule m = SHA256.schedule m := by
  unfold plainSchedule SHA256.schedule
  congr 1
  funext w j
  simp only [rrot32_eq, SHA256.sigma0, SHA256.sigma1, SHA256.shr]
  congr 2
  ac_rfl

def plainWork (s : PlainWork) : SHA256.Vars := ⟨s.a, s.b, s.c, s.d, s.e, s.f, s.g, s.h⟩

theorem plainRound_spec (s : PlainWork) (k w : BitVec 32) :
    plainWork (plainRoundStep s k w) = SHA256.round (plainWork s) k w := by
  unfold plainWork plainRoundStep SHA256.round
  simp only [rrot32_eq, ch_eq, maj_eq, SHA256.Sigma0, SHA256.Sigma1]
  congr 1 <;> ac_rfl

theorem plainK_eq : plainK.map (BitVec.ofNat 32) = SHA256.K := by decide +kernel
theorem initK_eq : (initK.map word).map bv = SHA256.K := by decide +kernel
theorem refreshK_eq : refreshK = initK := by decide
theorem refreshH_eq : refreshH = initH := by decide
theorem initH_eq : (initH.map word).map bv = SHA256.H0 := by decide +kernel
theorem offlineK_eq : offlineK = initK := by decide
theorem offlineH_eq : offlineH = initH := by decide

theorem plainChunkCompress_spec (h : List (BitVec 32)) (chunk : List Byte) :
    plainChunkCompress h chunk = SHA256.compress h (loadWords chunk) := by
  unfold plainChunkCompress SHA256.compress
  rw [plainSchedule_spec]
  simp only
  generalize hs0 : (⟨h.getD 0 0, h.getD 1 0, h.getD 2 0, h.getD 3 0, h.getD 4 0, h.getD 5 0, h.getD 6 0,
    h.getD 7 0⟩ : PlainWork) = s0
  have hv : (⟨h.getD 0 0, h.getD 1 0, h.getD 2 0, h.getD 3 0, h.getD 4 0, h.getD 5 0, h.getD 6 0,
    h.getD 7 0⟩ : SHA256.Vars) = plainWork s0 := by subst hs0; rfl
  have key : ∀ (n : Nat), plainWork ((List.range n).foldl
      (fun s i => plainRoundStep s (BitVec.ofNat 32 (plainK.getD i 0)) ((SHA256.schedule (loadWords chunk)).getD i 0)) s0)
      = (List.range n).foldl (fun s t => SHA256.round s (SHA256.K.getD t 0)
          ((SHA256.schedule (loadWords chunk)).getD t 0)) (plainWork s0) := by
    intro n
    induction n with
    | zero => rfl
    | succ n ih =>
      rw [List.range_succ, List.foldl_append, List.foldl_append]
      simp only [List.foldl_cons, List.foldl_nil]
      rw [plainRound_spec, ih]
      congr 1
      rw [← plainK_eq]
      simp only [List.getD_eq_getElem?_getD, List.getElem?_map]
      cases plainK[n]? <;> rfl
  rw [hv, ← key 64]
  subst hs0
  rfl

end Verif.Lemmas
