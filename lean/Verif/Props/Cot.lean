import Verif.Model.Cot
import Verif.Lemmas.GC
import Mathlib.Data.List.Forall2
import Mathlib.Data.List.Nodup

/-! C20: the correlated-OT buffer. -/

namespace Verif.Props
open Verif.Model Verif.Model.Cot Verif.Lemmas
open Verif.Model.GC (sel)

theorem mapM_some {α β : Type} (f : α → β) (l : List α) : (l.map fun x => some (f x)).mapM id = some (l.map f) := by
  induction l with
  | nil => rfl
  | cons a l ih => simp [List.mapM_cons, ih]

theorem readRange_map {α : Type} (f : Nat → α) (s n off len : Nat) (h : off + len ≤ n) :
    readRange ((List.range' s n).map fun i => some (f i)) off len = .ok ((List.range' (s + off) len).map f) := by
  have e : (((List.range' s n).map fun i => some (f i)).drop off).take len
      = (List.range' (s + off) len).map fun i => some (f i) := by
    rw [← List.map_drop, ← List.map_take]
    congr 1
    apply List.ext_getElem
    · simp; omega
    · intro i h1 h2
      simp [List.getElem_range']
  unfold readRange
  rw [if_pos (by simpa using h), e, mapM_some]

/-- The two buffers hold the correlations `start …` and both parties are in step; `used` are the numbers given out. -/
structure CotInv (R : Nat → Bool) (n : Net) (used : List Nat) (start : Nat) : Prop where
  batch : n.eva.batch = n.gen.batch
  top : n.eva.top = n.gen.top
  pos : n.eva.pos = n.gen.pos
  le : n.gen.top ≤ n.gen.batch
  gbuf : n.gen.buf = (List.range' start n.gen.batch).map fun i => some i
  ebuf : n.eva.buf = (List.range' start n.gen.batch).map fun i => some (i, R i)
  bound : start + n.gen.batch ≤ n.gen.pos
  old : ∀ i ∈ used, i < n.gen.pos ∧ (i < start + n.gen.top ∨ start + n.gen.batch ≤ i)
  nodup : used.Nodup

/-- What an input of the bits `b` must give. -/
structure FedOk (delta : Block) (K : Nat → Block) (f : Fed) (b : List Bool) : Prop where
  same : f.genIds = f.evaIds
  len : f.genIds.length = b.length
  glen : f.genLabels.length = b.length
  elen : f.evaLabels.length = b.length
  fresh : f.genIds.Nodup
  keys : ∀ (i k : Nat) (l : Block), f.genIds[i]? = some k → f.genLabels[i]? = some l → l = K k ∨ l = K k ^^^ delta
  label : ∀ (i : Nat) (g e : Block) (v : Bool), f.genLabels[i]? = some g → f.evaLabels[i]? = some e → b[i]? = some v →
    e = g ^^^ sel v delta

/-- The result of a buffered input that uses the numbers `ids`. -/
theorem fed_buffered (delta : Block) (K : Nat → Block) (R : Nat → Bool) (ids : List Nat) (b : List Bool) (hl : ids.length = b.length)
    (hn : ids.Nodup) :
    FedOk delta K ⟨ids, (ids.map fun i => (i, R i)).map (·.1),
      List.zipWith (fun i t => if t then K i ^^^ delta else K i) ids
        (List.zipWith (fun (x : Nat × Bool) c => x.2 != c) (ids.map fun i => (i, R i)) b),
      (ids.map fun i => (i, R i)).map fun x => K x.1 ^^^ sel x.2 delta⟩ b := by
  refine ⟨by simp [Function.comp_def], hl, by simp [hl], by simp [hl], hn, ?_, ?_⟩
  · intro i k l h1 h2
    have h1 : ids[i]? = some k := h1
    simp only [List.getElem?_zipWith, List.getElem?_map, h1, Option.map_some] at h2
    cases hb : b[i]? with
    | none => simp [hb] at h2
    | some c =>
      simp only [hb, Option.some.injEq] at h2
      rw [← h2]
      split
      · exact Or.inr rfl
      · exact Or.inl rfl
  · intro i g e v h1 h2 h3
    simp only [List.getElem?_zipWith, List.getElem?_map, h3] at h1 h2
    cases hi : ids[i]? with
    | none => simp [hi] at h2
    | some k =>
      simp only [hi, Option.map_some, Option.some.injEq] at h1 h2
      subst h1 h2
      cases R k <;> cases v <;> simp [sel, BitVec.xor_assoc]

theorem range'_append (s a b : Nat) : List.range' s (a + b) = List.range' s a ++ List.range' (s + a) b := by
  rw [List.range'_append_1]

theorem cot_feed (K : Nat → Block) (R : Nat → Bool) (delta : Block) (n : Net) (used : List Nat) (start : Nat)
    (h : CotInv R n used start) (b : List Bool) :
    ∃ f n' start', n.feed K R delta b = .ok (f, n') ∧ FedOk delta K f b ∧ CotInv R n' (used ++ f.genIds) start' := by
  obtain ⟨⟨gb, gt, gbuf, gp⟩, ⟨eb, et, ebuf, ep⟩⟩ := n
  obtain ⟨h1, h2, h3, h4, h5, h6, h7, h8, h9⟩ := h
  simp only at h1 h2 h3 h4 h5 h6 h7 h8
  subst h1 h2 h3
  by_cases c1 : b.length > eb
  · -- directly from the correlated OT
    refine ⟨⟨List.range' ep b.length, (List.zip (List.range' ep b.length) b).map (·.1), (List.range' ep b.length).map K,
      (List.zip (List.range' ep b.length) b).map fun x => K x.1 ^^^ sel x.2 delta⟩,
      ⟨⟨eb, et, gbuf, ep + b.length⟩, ⟨eb, et, ebuf, ep + b.length⟩⟩, start, ?_, ?_, ?_⟩
    · simp only [Net.feed, Eva.take, Gen.take, c1, if_true, bind, Except.bind, ne_eq, not_true_eq_false, if_false,
        Bool.false_eq_true]
    · refine ⟨?_, by simp, by simp, by simp, List.nodup_range', ?_, ?_⟩
      · rw [List.map_fst_zip]; simp
      · intro i k l a1 a2
        simp only [List.getElem?_map, a1, Option.map_some, Option.some.injEq] at a2
        exact Or.inl a2.symm
      · intro i g e v a1 a2 a3
        simp only [List.getElem?_map, List.zip, List.getElem?_zipWith, a3] at a1 a2
        cases hi : (List.range' ep b.length)[i]? with
        | none => simp [hi] at a2
        | some k =>
          simp only [hi, Option.map_some, Option.some.injEq] at a1 a2
          subst a1 a2
          rfl
    · refine ⟨rfl, rfl, rfl, h4, h5, h6, by simp only; omega, ?_, ?_⟩
      · intro i hi
        simp only
        rcases List.mem_append.mp hi with hi | hi
        · have := h8 i hi; omega
        · simp only [List.mem_range'_1] at hi; omega
      · refine List.nodup_append.mpr ⟨h9, List.nodup_range', ?_⟩
        intro i hi j hj e
        have := h8 i hi
        simp only [List.mem_range'_1] at hj; omega
  · by_cases c2 : b.length + et > eb
    · -- split over a refill
      have r1 : readRange ebuf et (eb - et) = .ok ((List.range' (start + et) (eb - et)).map fun i => (i, R i)) := by
        rw [h6]; exact readRange_map (fun i => (i, R i)) _ _ _ _ (by omega)
      have r2 : readRange gbuf et (eb - et) = .ok (List.range' (start + et) (eb - et)) := by
        rw [h5]; simpa using readRange_map (fun i => i) start eb et (eb - et) (by omega)
      have r3 : readRange ((List.range' ep eb).map fun i => some (i, R i)) 0 (b.length - (eb - et))
          = .ok ((List.range' ep (b.length - (eb - et))).map fun i => (i, R i)) :=
        readRange_map (fun i => (i, R i)) _ _ _ _ (by omega)
      have r4 : readRange ((List.range' ep eb).map some) 0 (b.length - (eb - et))
          = .ok (List.range' ep (b.length - (eb - et))) := by
        simpa using readRange_map (fun i => i) ep eb 0 (b.length - (eb - et)) (by omega)
      have hnd : (List.range' (start + et) (eb - et) ++ List.range' ep (b.length - (eb - et))).Nodup := by
        refine List.nodup_append.mpr ⟨List.nodup_range', List.nodup_range', ?_⟩
        intro i hi j hj e
        simp only [List.mem_range'_1] at hi hj; omega
      refine ⟨_, ⟨⟨eb, b.length - (eb - et), (List.range' ep eb).map some, ep + eb⟩,
        ⟨eb, b.length - (eb - et), (List.range' ep eb).map fun i => some (i, R i), ep + eb⟩⟩, ep, ?_,
        fed_buffered delta K R (List.range' (start + et) (eb - et) ++ List.range' ep (b.length - (eb - et))) b
          (by simp; omega) hnd, ?_⟩
      · have c3 : ¬ et > eb := by omega
        simp only [Net.feed, Eva.take, Gen.take, c1, c2, c3, if_true, if_false, bind, Except.bind, r1, r2, Gen.refill, Eva.refill,
          r3, r4, ne_eq, not_true_eq_false, List.map_append]
      · refine ⟨rfl, rfl, rfl, by simp only; omega, rfl, rfl, by simp only; omega, ?_, ?_⟩
        · intro i hi
          simp only
          rcases List.mem_append.mp hi with hi | hi
          · have := h8 i hi; omega
          · rcases List.mem_append.mp hi with hi | hi <;> simp only [List.mem_range'_1] at hi <;> omega
        · refine List.nodup_append.mpr ⟨h9, hnd, ?_⟩
          intro i hi j hj e
          have := h8 i hi
          rcases List.mem_append.mp hj with hj | hj <;> simp only [List.mem_range'_1] at hj <;> omega
    · have r1 : readRange ebuf et b.length = .ok ((List.range' (start + et) b.length).map fun i => (i, R i)) := by
        rw [h6]; exact readRange_map (fun i => (i, R i)) _ _ _ _ (by omega)
      have r2 : readRange gbuf et b.length = .ok (List.range' (start + et) b.length) := by
        rw [h5]; simpa using readRange_map (fun i => i) start eb et b.length (by omega)
      refine ⟨_, ⟨⟨eb, et + b.length, gbuf, ep⟩, ⟨eb, et + b.length, ebuf, ep⟩⟩, start, ?_,
        fed_buffered delta K R (List.range' (start + et) b.length) b (by simp) List.nodup_range', ?_⟩
      · simp only [Net.feed, Eva.take, Gen.take, c1, c2, if_true, if_false, bind, Except.bind, r1, r2, ne_eq, not_true_eq_false]
      · refine ⟨rfl, rfl, rfl, by simp only; omega, h5, h6, h7, ?_, ?_⟩
        · intro i hi
          simp only
          rcases List.mem_append.mp hi with hi | hi
          · have := h8 i hi; omega
          · simp only [List.mem_range'_1] at hi; omega
        · refine List.nodup_append.mpr ⟨h9, List.nodup_range', ?_⟩
          intro i hi j hj e
          have := h8 i hi
          simp only [List.mem_range'_1] at hj; omega

theorem cot_run (K : Nat → Block) (R : Nat → Bool) (delta : Block) (bs : List (List Bool)) :
    ∀ (n : Net) (used : List Nat) (start : Nat), CotInv R n used start →
    ∃ fs n', n.run K R delta bs = .ok (fs, n') ∧ List.Forall₂ (FedOk delta K) fs bs
      ∧ (used ++ fs.flatMap Fed.genIds).Nodup := by
  induction bs with
  | nil => intro n used start h; exact ⟨[], n, rfl, .nil, by simpa using h.nodup⟩
  | cons b bs ih =>
    intro n used start h
    obtain ⟨f, n1, s1, e1, o1, h1⟩ := cot_feed K R delta n used start h b
    obtain ⟨fs, n2, e2, o2, h2⟩ := ih n1 _ _ h1
    exact ⟨f :: fs, n2, by simp only [Net.run, bind, Except.bind, e1, e2], .cons o1 o2, by simpa using h2⟩

/-- **C20.**  For every batch size, every history of inputs of the evaluator of any lengths, every offset and every
outcome of the correlated OT: the inputs succeed, both parties use the same correlations, no correlation is ever used
for two input bits, and every input bit gets the label of its value. What is missing: changes of the batch size, see
`C20_set_batch_size`. -/
theorem C20_feed_partial (K : Nat → Block) (R : Nat → Bool) (delta : Block) (batch : Nat) (bs : List (List Bool)) :
    ∃ fs n', Net.run K R delta ⟨Gen.init batch, Eva.init R batch⟩ bs = .ok (fs, n')
      ∧ List.Forall₂ (FedOk delta K) fs bs ∧ (fs.flatMap Fed.genIds).Nodup := by
  obtain ⟨fs, n', a, b, c⟩ := cot_run K R delta bs ⟨Gen.init batch, Eva.init R batch⟩ [] 0
    ⟨rfl, rfl, rfl, Nat.zero_le _, by simp [Gen.init, Gen.refill], by simp [Eva.init, Eva.refill, Gen.init, Gen.refill],
      by simp [Gen.init, Gen.refill], by simp, by simp⟩
  exact ⟨fs, n', a, b, by simpa using c⟩

/-- The claim fails for `set_batch_size`: after it, whatever happened before, every non-empty buffered input of the
evaluator that leaves the buffer unfilled reads uninitialised memory. -/
theorem C20_set_batch_size (K : Nat → Block) (R : Nat → Bool) (delta : Block) (n : Net) (size : Nat)
    (b : List Bool) (hb : b ≠ []) (hfit : b.length + n.eva.top ≤ size) :
    ∃ m, Net.feed K R delta ⟨n.gen.setBatch size, n.eva.setBatch size⟩ b = .error (.ub m) := by
  have hpos : 0 < b.length := List.length_pos_iff.mpr hb
  refine ⟨"uninitialised buffer read", ?_⟩
  have hr : readRange (List.replicate size (none : Option (Nat × Bool))) n.eva.top b.length
      = .error (.ub "uninitialised buffer read") := by
    unfold readRange
    rw [if_pos (by simpa [Nat.add_comm] using hfit), List.drop_replicate, List.take_replicate,
      Nat.min_eq_left (by omega)]
    obtain ⟨k, hk⟩ : ∃ k, b.length = k + 1 := ⟨b.length - 1, by omega⟩
    rw [hk, List.replicate_succ]
    simp
  simp only [Net.feed, Eva.take, Eva.setBatch, show ¬ b.length > size by omega, show ¬ b.length + n.eva.top > size by omega,
    if_false, bind, Except.bind, hr]

/-- Shrinking the buffer below the current position makes the next input copy a negative number of bytes. -/
theorem C20_set_batch_size_smaller (K : Nat → Block) (R : Nat → Bool) (delta : Block) (n : Net) (size : Nat)
    (b : List Bool) (hsmall : size < n.eva.top) (hb : b.length ≤ size) :
    ∃ m, Net.feed K R delta ⟨n.gen.setBatch size, n.eva.setBatch size⟩ b = .error (.ub m) := by
  refine ⟨"memcpy of negative length", ?_⟩
  simp only [Net.feed, Eva.take, Eva.setBatch, show ¬ b.length > size by omega, show b.length + n.eva.top > size by omega,
    show n.eva.top > size from hsmall, if_true, if_false, bind, Except.bind]

/-- The same for the garbler alone, whose buffer is replaced too. -/
theorem C20_set_batch_size_garbler (g : Gen) (size len : Nat) :
    (0 < len → len + g.top ≤ size → ∃ m, (g.setBatch size).take len = .error (.ub m))
      ∧ (size < g.top → len ≤ size → ∃ m, (g.setBatch size).take len = .error (.ub m)) := by
  constructor
  · intro hpos hfit
    refine ⟨"uninitialised buffer read", ?_⟩
    have hr : readRange (List.replicate size (none : Option Nat)) g.top len = .error (.ub "uninitialised buffer read") := by
      unfold readRange
      rw [if_pos (by simpa [Nat.add_comm] using hfit), List.drop_replicate, List.take_replicate, Nat.min_eq_left (by omega)]
      obtain ⟨k, hk⟩ : ∃ k, len = k + 1 := ⟨len - 1, by omega⟩
      rw [hk, List.replicate_succ]
      simp
    simp only [Gen.take, Gen.setBatch, show ¬ len > size by omega, show ¬ len + g.top > size by omega, if_false, bind, Except.bind, hr]
  · intro hsmall hl
    refine ⟨"memcpy of negative length", ?_⟩
    simp only [Gen.take, Gen.setBatch, show ¬ len > size by omega, show len + g.top > size by omega, show g.top > size from hsmall,
      if_true, if_false]

/-- Histories crossing a refill and exceeding the buffer exist. -/
example : (Net.run (fun _ => 0) (fun i => i % 3 == 0) 1 ⟨Gen.init 4, Eva.init (fun i => i % 3 == 0) 4⟩
    [[true, false, true], [false, true, true], [true, true, true, true, true], [false]]).toOption.map
      (fun r => r.1.map Fed.genIds) = some [[0, 1, 2], [3, 4, 5], [8, 9, 10, 11, 12], [6]] := by decide +kernel

example : (⟨Gen.init 4, Eva.init (fun _ => false) 4⟩ : Net).eva.top + [true].length ≤ 8 := by decide

end Verif.Props
