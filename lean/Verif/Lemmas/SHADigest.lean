import Verif.Lemmas.SHA256

/-! Padding, chunk loop and digests of the SHA-256 model. -/

namespace Verif.Lemmas
open Verif.Model Verif.Model.Integer Verif.Model.SHA
open Verif.Spec Verif.Spec.Encoding

/-! ### Padding -/

theorem padLoop_eq (K : Int) (h : K < 512) : padLoop K = K % 512 := by
  induction K using padLoop.induct with
  | case1 K hK ih => rw [padLoop, if_pos hK, ih (by omega)]; omega
  | case2 K hK => rw [padLoop, if_neg hK]; omega

theorem pad_toInt (L : Nat) (h : L < 2 ^ 63) : (512#64 - 65#64 - BitVec.ofNat 64 L).toInt = 447 - (L : Int) := by
  have e : (512#64 - 65#64 : BitVec 64) = 447#64 := by decide
  rw [e, BitVec.toInt_sub]
  have h1 : (447#64 : BitVec 64).toInt = 447 := by decide
  have h2 : (BitVec.ofNat 64 L).toInt = L := by
    rw [BitVec.toInt_ofNat', Int.bmod_eq_of_le] <;> omega
  rw [h1, h2, Int.bmod_eq_of_le] <;> omega

theorem padding_reverse (x : Integer) (h : x.length < 2 ^ 63) :
    (padding x).reverse = SHA256.pad x.reverse := by
  unfold padding SHA256.pad
  simp only
  rw [pad_toInt _ h, padLoop_eq _ (by omega)]
  have e : ((447 - (x.length : Int)) % 512).toNat = SHA256.padZeros x.length := by
    unfold SHA256.padZeros; omega
  simp only [concat_reverse, List.map_cons, List.map_nil, List.flatten_cons, List.flatten_nil, List.append_nil]
  rw [e, ofNat_reverse 64, ofNat_zero, List.reverse_replicate, List.length_reverse]
  rfl

theorem length_pad (m : List Bool) : (SHA256.pad m).length = 512 * ((m.length + 64) / 512 + 1) := by
  unfold SHA256.pad SHA256.padZeros
  simp
  omega

theorem length_padding (x : Integer) (h : x.length < 2 ^ 63) :
    (padding x).length = 512 * ((x.length + 64) / 512 + 1) := by
  rw [← List.length_reverse, padding_reverse x h, length_pad, List.length_reverse]

/-! ### Words of a message -/

theorem mapM_ok {α β : Type} (l : List α) (f : α → Res β) (g : α → β) (h : ∀ a ∈ l, f a = .ok (g a)) :
    l.mapM f = .ok (l.map g) := by
  induction l with
  | nil => rfl
  | cons a l ih =>
    rw [List.mapM_cons, h a List.mem_cons_self, ih (fun b hb => h b (List.mem_cons_of_mem _ hb))]
    rfl

/-- Word `i` of the integer, from the most significant end. -/
def secWord (x : Integer) (i : Nat) : Integer := (x.drop (x.length - i * 32 - 32)).take 32

theorem length_secWord (x : Integer) (i : Nat) (h : i * 32 + 32 ≤ x.length) : (secWord x i).length = 32 := by
  simp [secWord]; omega

theorem secWord_reverse (x : Integer) (i : Nat) (h : i * 32 + 32 ≤ x.length) :
    (secWord x i).reverse = (x.reverse.drop (i * 32)).take 32 := by
  obtain ⟨r, h1, h2⟩ := extract_reverse x (i * 32) 32 h
  rw [extractInteger, if_pos h] at h1
  have : secWord x i = r := by injection h1
  rw [this, h2]

theorem bv_secWord (x : Integer) (i : Nat) (h : i * 32 + 32 ≤ x.length) :
    bv (secWord x i) = BitVec.ofNat 32 (SHA256.bitsToNat ((x.reverse.drop (i * 32)).take 32)) := by
  rw [bv, ← bitsToNat_reverse, secWord_reverse x i h]

theorem inputWords_eq (x : Integer) :
    inputWords x = .ok ((List.range (x.length / 32)).map (secWord x)) := by
  unfold inputWords
  apply mapM_ok
  intro i hi
  rw [List.mem_range] at hi
  rw [extractInteger, if_pos (by omega)]
  rfl

theorem pieces_eq (n k : Nat) (l : List Bool) :
    SHA256.pieces n k l = (List.range k).map fun t => (l.drop (n * t)).take n := by
  induction k generalizing l with
  | zero => rfl
  | succ k ih =>
    rw [SHA256.pieces, ih, List.range_succ_eq_map, List.map_cons, List.map_map]
    congr 1
    apply List.map_congr_left
    intro t _
    simp only [Function.comp, List.drop_drop]
    rw [Nat.mul_succ, Nat.add_comm]

theorem blockWords_eq (b : List Bool) :
    SHA256.blockWords b
      = (List.range 16).map fun t => BitVec.ofNat 32 (SHA256.bitsToNat ((b.drop (32 * t)).take 32)) := by
  rw [SHA256.blockWords, pieces_eq, List.map_map]; rfl

/-- Block `i` of a bit string. -/
def blockAt (p : List Bool) (i : Nat) : List Bool := (p.drop (512 * i)).take 512

theorem processBlocks_pieces (H : List SHA256.Word) (n : Nat) (p : List Bool) :
    SHA256.processBlocks H (SHA256.pieces 512 n p)
      = (List.range n).foldl (fun H i => SHA256.compress H (SHA256.blockWords (blockAt p i))) H := by
  rw [SHA256.processBlocks, pieces_eq, List.foldl_map]; rfl

theorem chunk_words (x : Integer) (i : Nat) (h : 512 * i + 512 ≤ x.length) :
    let c := (List.range 16).map fun t => ((List.range (x.length / 32)).map (secWord x)).getD (t + i * 512 / 32) []
    W32 c ∧ c.length = 16 ∧ c.map bv = SHA256.blockWords (blockAt x.reverse i) := by
  have hget : ∀ t, t < 16 →
      ((List.range (x.length / 32)).map (secWord x)).getD (t + i * 512 / 32) [] = secWord x (t + 16 * i) := by
    intro t ht
    have e : i * 512 / 32 = 16 * i := by omega
    have hb : t + 16 * i < ((List.range (x.length / 32)).map (secWord x)).length := by simp; omega
    rw [e, List.getD_eq_getElem?_getD, List.getElem?_eq_getElem hb]
    simp
  have hc : ((List.range 16).map fun t =>
      ((List.range (x.length / 32)).map (secWord x)).getD (t + i * 512 / 32) [])
      = (List.range 16).map fun t => secWord x (t + 16 * i) := by
    apply List.map_congr_left
    intro t ht
    exact hget t (List.mem_range.1 ht)
  intro c
  have hc' : c = (List.range 16).map fun t => secWord x (t + 16 * i) := hc
  rw [hc']
  refine ⟨?_, by simp, ?_⟩
  · intro w hw
    obtain ⟨t, ht, rfl⟩ := List.mem_map.1 hw
    rw [List.mem_range] at ht
    exact length_secWord _ _ (by omega)
  · rw [blockWords_eq, List.map_map]
    apply List.map_congr_left
    intro t ht
    rw [List.mem_range] at ht
    simp only [Function.comp]
    rw [bv_secWord _ _ (by omega), blockAt]
    congr 2
    rw [List.drop_take, List.drop_drop, List.take_take]
    have e1 : (t + 16 * i) * 32 = 512 * i + 32 * t := by omega
    have e2 : min 32 (512 - 32 * t) = 32 := by omega
    rw [e1, e2]

/-- Eight 32-bit secret words. -/
def Dig8 (d : List Integer) : Prop := W32 d ∧ d.length = 8

theorem chunkLoop_spec (k : List Integer) (hk : k.map bv = SHA256.K) (x : Integer) (n : Nat)
    (hx : x.length = 512 * n) (hn : 0 < n) (dig : List Integer) (hd : Dig8 dig) :
    let r := chunkLoop k ((List.range (x.length / 32)).map (secWord x)) n dig
    Dig8 r ∧ r.map bv = (List.range (n - 1)).foldl
      (fun H j => SHA256.compress H (SHA256.blockWords (blockAt x.reverse (j + 1)))) (dig.map bv) := by
  unfold chunkLoop
  have key : ∀ m, m ≤ n - 1 →
      let r := (List.range m).foldl (fun dig j =>
        let i := j + 1
        chunkCompress k dig ((List.range 16).map fun t =>
          ((List.range (x.length / 32)).map (secWord x)).getD (t + i * 512 / 32) [])) dig
      Dig8 r ∧ r.map bv = (List.range m).foldl
        (fun H j => SHA256.compress H (SHA256.blockWords (blockAt x.reverse (j + 1)))) (dig.map bv) := by
    intro m
    induction m with
    | zero => intro _; exact ⟨hd, rfl⟩
    | succ m ih =>
      intro hm
      obtain ⟨i1, i2⟩ := ih (by omega)
      rw [List.range_succ (n := m), List.foldl_append, List.foldl_append]
      simp only [List.foldl_cons, List.foldl_nil]
      obtain ⟨c1, c2, c3⟩ := chunk_words x (m + 1) (by omega)
      obtain ⟨r1, r2, r3⟩ := chunkCompress_spec k _ _ hk i1.1 i1.2 c1 c2
      refine ⟨⟨r1, r2⟩, ?_⟩
      rw [r3, c3, i2]
  exact key (n - 1) (Nat.le_refl _)

theorem foldl_range_first {α : Type} (f : α → Nat → α) (a : α) (n : Nat) (hn : 0 < n) :
    (List.range n).foldl f a = (List.range (n - 1)).foldl (fun a j => f a (j + 1)) (f a 0) := by
  obtain ⟨m, rfl⟩ : ∃ m, n = m + 1 := ⟨n - 1, by omega⟩
  rw [List.range_succ_eq_map, List.foldl_cons, List.foldl_map]
  rfl

/-! ### Object invariant and digests -/

/-- The constant tables of the object are the FIPS ones. -/
structure ShaOk (s : Sha) : Prop where
  k : s.k.map bv = SHA256.K
  h : s.h.map bv = SHA256.H0
  h8 : Dig8 s.h

theorem shaOk_tables : Dig8 (initH.map word) := by
  refine ⟨?_, by decide⟩
  intro x hx
  obtain ⟨a, _, rfl⟩ := List.mem_map.1 hx
  simp [word]

theorem ShaOk.new : ShaOk Sha.new := ⟨initK_eq, initH_eq, shaOk_tables⟩

theorem ShaOk.refresh (s : Sha) : ShaOk s.refresh := by
  refine ⟨?_, ?_, ?_⟩
  · show (refreshK.map word).map bv = _; rw [refreshK_eq]; exact initK_eq
  · show (refreshH.map word).map bv = _; rw [refreshH_eq]; exact initH_eq
  · show Dig8 (refreshH.map word); rw [refreshH_eq]; exact shaOk_tables

/-- FIPS state after the first block of a message. -/
def firstState (p : List Bool) : List SHA256.Word := SHA256.compress SHA256.H0 (SHA256.blockWords (blockAt p 0))

/-- FIPS processing of blocks `1 .. n-1`. -/
def restState (n : Nat) (p : List Bool) (H : List SHA256.Word) : List SHA256.Word :=
  (List.range (n - 1)).foldl (fun H j => SHA256.compress H (SHA256.blockWords (blockAt p (j + 1)))) H

theorem sha256Words_split (m : List Bool) :
    SHA256.sha256Words m
      = restState ((m.length + 64) / 512 + 1) (SHA256.pad m) (firstState (SHA256.pad m)) := by
  unfold SHA256.sha256Words
  simp only
  rw [length_pad, Nat.mul_div_cancel_left _ (by omega), processBlocks_pieces, foldl_range_first _ _ _ (by omega)]
  rfl

theorem tmp0 (x : Integer) (n : Nat) (hx : x.length = 512 * n) (hn : 0 < n) :
    let c := (List.range 16).map fun j => ((List.range (x.length / 32)).map (secWord x)).getD j []
    W32 c ∧ c.length = 16 ∧ c.map bv = SHA256.blockWords (blockAt x.reverse 0) := by
  have := chunk_words x 0 (by omega)
  simpa using this

/-- Result of the two updates when the first block state is computed afresh, and in general. -/
theorem update_spec (s : Sha) (hs : ShaOk s) (x : Integer) (n : Nat) (hx : x.length = 512 * n) (hn : 0 < n)
    (r : Bool) :
    ∃ dig0 dig s', s.update x r = .ok (dig, s')
      ∧ (if r && s.gcOut then dig0 = s.ivOut
         else Dig8 dig0 ∧ dig0.map bv = firstState x.reverse)
      ∧ (Dig8 dig0 → Dig8 dig ∧ dig.map bv = restState n x.reverse (dig0.map bv))
      ∧ s' = { s with calls := s'.calls, ivOut := if r then dig0 else s.ivOut, gcOut := r || s.gcOut } := by
  obtain ⟨t1, t2, t3⟩ := tmp0 x n hx hn
  obtain ⟨f1, f2, f3⟩ := chunkCompress_spec s.k s.h _ hs.k hs.h8.1 hs.h8.2 t1 t2
  rw [hs.h, t3] at f3
  have hloop := fun dig hd => chunkLoop_spec s.k hs.k x n hx hn dig hd
  have hm : x.length % 512 = 0 := by omega
  have hd : x.length / 512 = n := by omega
  have hne : n ≠ 0 := by omega
  have hbind : s.update x r = (let data := (List.range (x.length / 32)).map (secWord x)
      let tmp := (List.range 16).map fun j => data.getD j []
      let p : List Integer × Sha :=
        if r then
          if s.gcOut then (s.ivOut, s)
          else (chunkCompress s.k s.h tmp,
            { s with ivOut := chunkCompress s.k s.h tmp, gcOut := true, calls := s.calls + 1 })
        else (chunkCompress s.k s.h tmp, { s with calls := s.calls + 1 })
      .ok (chunkLoop p.2.k data n p.1, { p.2 with calls := p.2.calls + (n - 1) })) := by
    unfold Sha.update
    rw [inputWords_eq]
    simp only [hm, hd, hne, ne_eq, not_true_eq_false, if_false, bind, Except.bind]
  rw [hbind]
  cases r with
  | false => exact ⟨_, _, _, rfl, ⟨⟨f1, f2⟩, f3⟩, fun h => hloop _ h, rfl⟩
  | true =>
    cases hg : s.gcOut with
    | false =>
      simp only [Bool.false_eq_true, if_false, if_true]
      exact ⟨_, _, _, rfl, ⟨⟨f1, f2⟩, f3⟩, fun h => hloop _ h, rfl⟩
    | true =>
      simp only [if_true]
      exact ⟨_, _, _, rfl, rfl, fun h => hloop _ h, by simp [hg]⟩

theorem optRoundsUpdate_spec (s : Sha) (hs : ShaOk s) (x : Integer) (n : Nat) (hx : x.length = 512 * n) (hn : 0 < n)
    (r : Bool) :
    ∃ dig0 dig s', s.optRoundsUpdate x r = .ok (dig, s')
      ∧ (if r && s.gcIn then dig0 = s.ivInSec
         else Dig8 dig0 ∧ dig0.map bv = firstState x.reverse)
      ∧ (Dig8 dig0 → Dig8 dig ∧ dig.map bv = restState n x.reverse (dig0.map bv))
      ∧ s' = { s with calls := s'.calls, ivInSec := if r then dig0 else s.ivInSec, gcIn := r || s.gcIn } := by
  obtain ⟨t1, t2, t3⟩ := tmp0 x n hx hn
  obtain ⟨f1, f2, f3⟩ := chunkCompress_spec s.k s.h _ hs.k hs.h8.1 hs.h8.2 t1 t2
  rw [hs.h, t3] at f3
  have hloop := fun dig hd => chunkLoop_spec s.k hs.k x n hx hn dig hd
  have hm : x.length % 512 = 0 := by omega
  have hd : x.length / 512 = n := by omega
  have hne : n ≠ 0 := by omega
  have hbind : s.optRoundsUpdate x r = (let data := (List.range (x.length / 32)).map (secWord x)
      let tmp := (List.range 16).map fun j => data.getD j []
      let p : List Integer × Sha :=
        if r then
          if s.gcIn then (s.ivInSec, s)
          else (chunkCompress s.k s.h tmp,
            { s with ivInSec := chunkCompress s.k s.h tmp, gcIn := true, calls := s.calls + 1 })
        else (chunkCompress s.k s.h tmp, { s with calls := s.calls + 1 })
      .ok (chunkLoop p.2.k data n p.1, { p.2 with calls := p.2.calls + (n - 1) })) := by
    unfold Sha.optRoundsUpdate
    rw [inputWords_eq]
    simp only [hm, hd, hne, ne_eq, not_true_eq_false, if_false, bind, Except.bind]
  rw [hbind]
  cases r with
  | false => exact ⟨_, _, _, rfl, ⟨⟨f1, f2⟩, f3⟩, fun h => hloop _ h, rfl⟩
  | true =>
    cases hg : s.gcIn with
    | false =>
      simp only [Bool.false_eq_true, if_false, if_true]
      exact ⟨_, _, _, rfl, ⟨⟨f1, f2⟩, f3⟩, fun h => hloop _ h, rfl⟩
    | true =>
      simp only [if_true]
      exact ⟨_, _, _, rfl, rfl, fun h => hloop _ h, by simp [hg]⟩


/-! ### The half-public digest -/

theorem drop_flatten_const (l : List (List Bool)) (w i : Nat) (h : ∀ x ∈ l, x.length = w) (hi : i < l.length) :
    (l.flatten.drop (w * i)).take w = l[i] := by
  induction l generalizing i with
  | nil => simp at hi
  | cons x xs ih =>
    have hx := h x List.mem_cons_self
    cases i with
    | zero => simp [hx]
    | succ i =>
      have hi' : i < xs.length := by simpa using hi
      have e : w * (i + 1) = x.length + w * i := by rw [hx, Nat.mul_succ, Nat.add_comm]
      rw [List.flatten_cons, e, ← List.drop_drop, List.drop_left' rfl,
        ih i (fun y hy => h y (List.mem_cons_of_mem _ hy)) hi']
      rfl

theorem revealWords_eq (d : List Integer) (h : Dig8 d) : revealWords d = d.map bv := by
  unfold revealWords
  simp only [reverseConcat_eq, List.nil_append]
  apply List.ext_getElem
  · simp [h.2]
  · intro i h1 h2
    have hi : i < d.length := by simpa using h2
    simp only [List.getElem_map, List.getElem_range]
    rw [drop_flatten_const d 32 i h.1 hi]; rfl

theorem map_getD_range (l : List Integer) (n : Nat) (h : l.length = n) :
    (List.range n).map (fun j => l.getD j []) = l := by
  subst h
  apply List.ext_getElem
  · simp
  · intro i h1 h2
    simp [List.getD_eq_getElem?_getD, h2]

/-- First phase of `opt_digest`. -/
theorem optFirst_spec (s : Sha) (hs : ShaOk s) (x : Integer) (hx : x.length = 512) (r zk : Bool) :
    let good := firstState x.reverse
    ((r = false) → ∃ s', s.optFirst x r zk = .ok (good, s') ∧ s' = { s with calls := s'.calls })
    ∧ (r = true → zk = false → s.gcIn = false → ∃ s', s.optFirst x r zk = .ok (good, s') ∧
        s' = { s with calls := s'.calls, ivIn := s.ivIn ++ [good], gcIn := true, pos := s.pos + 1 })
    ∧ (r = true → zk = false → s.gcIn = true → s.optFirst x r zk =
        match s.ivIn[s.pos.toNat]? with
        | some dig => .ok (dig, s)
        | none => .error (.ub "opt_update: iv_in_hashes[pos] out of range"))
    ∧ (r = true → zk = true → ∃ s1,
        s1 = (if s.zkIn then s else
          { s with calls := s.calls + 1, zkIvIn := s1.zkIvIn, zkIn := true, zpos := s.zpos + 1 })
        ∧ (s.zkIn = false → ∃ d, Dig8 d ∧ d.map bv = good ∧ s1.zkIvIn = s.zkIvIn ++ [concat [] d])
        ∧ s.optFirst x r zk =
          match s1.ivIn[s1.zpos.toNat]? with
          | some dig => .ok (dig, s1)
          | none => .error (.ub "opt_update: iv_in_hashes[zpos] out of range")) := by
  have t := tmp0 x 1 (by omega) (by omega)
  have hlen : ((List.range (x.length / 32)).map (secWord x)).length = 16 := by simp [hx]
  simp only [map_getD_range _ 16 hlen] at t
  obtain ⟨t1, t2, t3⟩ := t
  obtain ⟨f1, f2, f3⟩ := chunkCompress_spec s.k s.h _ hs.k hs.h8.1 hs.h8.2 t1 t2
  rw [hs.h, t3] at f3
  have hd8 : Dig8 (chunkCompress s.k s.h ((List.range (x.length / 32)).map (secWord x))) := ⟨f1, f2⟩
  have hrev := revealWords_eq _ hd8
  rw [f3] at hrev
  intro good
  have hg : revealWords (chunkCompress s.k s.h ((List.range (x.length / 32)).map (secWord x))) = good := hrev
  refine ⟨?_, ?_, ?_, ?_⟩
  · intro hr; subst hr
    refine ⟨{ s with calls := s.calls + 1 }, ?_, rfl⟩
    unfold Sha.optFirst
    rw [inputWords_eq]
    simp only [hx, ne_eq, not_true_eq_false, if_false, bind, Except.bind] at hg ⊢
    rw [hg]; rfl
  · intro hr hz hgc; subst hr; subst hz
    refine ⟨{ s with calls := s.calls + 1, ivIn := s.ivIn ++ [good], gcIn := true, pos := s.pos + 1 }, ?_, rfl⟩
    unfold Sha.optFirst
    rw [inputWords_eq]
    simp only [hx, ne_eq, not_true_eq_false, if_false, bind, Except.bind, hgc] at hg ⊢
    rw [hg]; rfl
  · intro hr hz hgc; subst hr; subst hz
    unfold Sha.optFirst
    rw [inputWords_eq]
    simp only [hx, ne_eq, not_true_eq_false, if_false, bind, Except.bind, hgc]
    rfl
  · intro hr hz; subst hr; subst hz
    cases hzk : s.zkIn with
    | true =>
      refine ⟨s, rfl, by simp, ?_⟩
      unfold Sha.optFirst
      rw [inputWords_eq]
      simp only [hx, ne_eq, not_true_eq_false, if_false, bind, Except.bind, hzk]
      rfl
    | false =>
      refine ⟨{ s with
          calls := s.calls + 1,
          zkIvIn := s.zkIvIn ++ [concat [] (chunkCompress s.k s.h ((List.range (x.length / 32)).map (secWord x)))],
          zkIn := true, zpos := s.zpos + 1 }, rfl, fun _ => ⟨_, hd8, f3, rfl⟩, ?_⟩
      unfold Sha.optFirst
      rw [inputWords_eq]
      simp only [hx, ne_eq, not_true_eq_false, if_false, bind, Except.bind, hzk]
      rfl

end Verif.Lemmas
