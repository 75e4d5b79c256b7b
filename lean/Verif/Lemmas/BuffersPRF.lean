import Verif.Lemmas.Buffers
import Verif.Lemmas.OfflineRel

/-! The block buffer of SHA-256 and the arrays of the PRF: the functions on arrays against those on lists. -/

namespace Verif.Model.Buffers
open Verif.Model Verif.Model.Integer Verif.Model.SHA

theorem okBind {α β : Type} (a : α) (f : α → Res β) : (Except.ok a >>= f : Res β) = f a := rfl

/-- On the cells of `P` the array `c` holds the bytes of `l`. -/
def On (P : Nat → Prop) (c : Buf Byte) (l : List Byte) : Prop :=
  c.length = 64 ∧ l.length = 64 ∧ ∀ i, P i → c[i]? = (l[i]?).map some

theorem on_mono {P Q : Nat → Prop} {c : Buf Byte} {l : List Byte} (h : On P c l) (hq : ∀ i, Q i → P i) : On Q c l :=
  ⟨h.1, h.2.1, fun i hi => h.2.2 i (hq i hi)⟩

theorem on_store {P : Nat → Prop} {c : Buf Byte} {l : List Byte} (h : On P c l) (k : Nat) (hk : k < 64) (v : Byte) :
    ∃ c', store c k [v] = .ok c' ∧ On (fun i => P i ∨ i = k) c' (l.set k v) := by
  obtain ⟨h1, h2, h3⟩ := h
  refine ⟨_, store_set c k v (by omega), by simp [h1], by simp [h2], fun i hi => ?_⟩
  by_cases hik : k = i
  · subst hik
    rw [List.getElem?_set_self (by omega), List.getElem?_set_self (by omega)]; rfl
  · rw [List.getElem?_set_ne hik, List.getElem?_set_ne hik]
    exact h3 i (hi.resolve_right fun h => hik h.symm)

theorem on_zeros {c : Buf Byte} {l : List Byte} (start n : Nat) (h : On (· < start) c l) (hs : start + n ≤ 64) :
    ∃ c', (List.range n).foldlM (fun d j => store d (start + j) [(0 : Byte)]) c = .ok c' ∧
      On (· < start + n) c' ((List.range n).foldl (fun d j => d.set (start + j) 0) l) := by
  induction n with
  | zero => exact ⟨c, rfl, h⟩
  | succ n ih =>
    obtain ⟨c1, e1, o1⟩ := ih (by omega)
    obtain ⟨c2, e2, o2⟩ := on_store o1 (start + n) (by omega) 0
    refine ⟨c2, ?_, ?_⟩
    · rw [List.range_succ, List.foldlM_append, e1, okBind, List.foldlM_cons, e2]; rfl
    · rw [List.range_succ, List.foldl_append]
      exact on_mono o2 fun i hi => by
        by_cases h : i = start + n
        · exact Or.inr h
        · exact Or.inl (by omega)

theorem on_zeroTo {c : Buf Byte} {l : List Byte} (start stop : Nat) (h : On (· < start) c l) (h1 : start ≤ stop)
    (h2 : stop ≤ 64) : ∃ c', zeroTo c start stop = .ok c' ∧ On (· < stop) c' (fillZero l start stop) := by
  obtain ⟨c', e, o⟩ := on_zeros start (stop - start) h (by omega)
  exact ⟨c', e, on_mono o fun i hi => by omega⟩

theorem on_load {c : Buf Byte} {l : List Byte} (h : On (· < 64) c l) : load c 0 64 = .ok l := by
  obtain ⟨h1, h2, h3⟩ := h
  have : c = given l := by
    apply List.ext_getElem?
    intro i
    by_cases hi : i < 64
    · rw [h3 i hi]; simp [given]
    · rw [List.getElem?_eq_none (by omega), List.getElem?_eq_none (by simp [given]; omega)]
  rw [this]
  exact load_all l 64 h2

theorem fillZero_get (l : List Byte) (n : Nat) (h : n ≤ l.length) (i : Nat) (hi : i < n) : (fillZero l 0 n)[i]? = some 0 := by
  have key : ∀ m, m ≤ l.length → ((List.range m).foldl (fun d j => d.set (0 + j) (0 : Byte)) l).length = l.length ∧
      ∀ i, i < m → ((List.range m).foldl (fun d j => d.set (0 + j) (0 : Byte)) l)[i]? = some 0 := by
    intro m
    induction m with
    | zero => exact fun _ => ⟨rfl, fun i hi => by omega⟩
    | succ m ih =>
      intro hm
      obtain ⟨a, b⟩ := ih (by omega)
      rw [List.range_succ, List.foldl_append]
      refine ⟨by simpa using a, fun i hi => ?_⟩
      show (((List.range m).foldl (fun d j => d.set (0 + j) (0 : Byte)) l).set (0 + m) 0)[i]? = _
      by_cases h : 0 + m = i
      · subst h; rw [List.getElem?_set_self (by omega)]
      · rw [List.getElem?_set_ne h]; exact b i (by omega)
  exact (key (n - 0) h).2 i hi

theorem fillZero_length (l : List Byte) (a b : Nat) : (fillZero l a b).length = l.length := by
  unfold fillZero
  induction (List.range (b - a)) generalizing l with
  | nil => rfl
  | cons x xs ih => rw [List.foldl_cons, ih, List.length_set]

theorem on_fill {P : Nat → Prop} {c : Buf Byte} {l : List Byte} (h : On P c l) :
    ∃ c', fill c 0 56 (0 : Byte) = .ok c' ∧ On (· < 56) c' (fillZero l 0 56) := by
  obtain ⟨h1, h2, _⟩ := h
  have hs : ∃ c', store c 0 (List.replicate 56 (0 : Byte)) = .ok c' := by
    unfold store; rw [if_pos (by simp; omega)]; exact ⟨_, rfl⟩
  obtain ⟨c', e⟩ := hs
  refine ⟨c', e, by rw [store_length e, h1], by rw [fillZero_length, h2], fun i hi => ?_⟩
  rw [store_get e i, if_pos ⟨Nat.zero_le _, by simpa using hi⟩, fillZero_get l 56 (by omega) i hi]
  have hi' : i < 56 := hi
  rw [List.getElem?_replicate, if_pos (by omega)]

/-- The states of the two byte loops. -/
def Same (c : PlainC) (a : PlainAcc) : Prop :=
  c.dig = a.dig ∧ c.datalen = a.datalen ∧ c.bitlen = a.bitlen ∧ a.datalen < 64 ∧ On (· < a.datalen) c.data a.data

theorem same_byte {c : PlainC} {a : PlainAcc} (h : Same c a) (b : Byte) :
    ∃ c', plainByteC c b = .ok c' ∧ Same c' (plainByte a b) := by
  obtain ⟨h1, h2, h3, h4, h5⟩ := h
  obtain ⟨d, e, o⟩ := on_store h5 a.datalen h4 b
  unfold plainByteC plainByte
  rw [h2, e]
  by_cases h64 : a.datalen + 1 = 64
  · have hl := on_load (on_mono o (Q := (· < 64)) fun i hi => by
      by_cases h : i = a.datalen
      · exact Or.inr h
      · exact Or.inl (by omega))
    rw [if_pos h64]
    refine ⟨{ dig := SHA.plainChunkCompress c.dig (a.data.set a.datalen b), data := d, datalen := 0, bitlen := c.bitlen + 512 },
      ?_, ?_⟩
    · show (if a.datalen + 1 = 64 then _ else _) = _
      rw [if_pos h64, hl]; rfl
    · refine ⟨by rw [h1], rfl, by rw [h3], by show 0 < 64; decide, ?_⟩
      exact on_mono o fun i hi => absurd hi (by simp)
  · rw [if_neg h64]
    refine ⟨{ c with data := d, datalen := a.datalen + 1 }, ?_, ?_⟩
    · show (if a.datalen + 1 = 64 then _ else _) = _
      rw [if_neg h64]
    · refine ⟨h1, rfl, h3, ?_, ?_⟩
      · show a.datalen + 1 < 64
        omega
      · exact on_mono o fun i hi => by
          by_cases h : i = a.datalen
          · exact Or.inr h
          · refine Or.inl ?_
            have : i < a.datalen + 1 := hi
            omega

theorem same_bytes {c : PlainC} {a : PlainAcc} (h : Same c a) (pub : List Byte) :
    ∃ c', pub.foldlM plainByteC c = .ok c' ∧ Same c' (pub.foldl plainByte a) := by
  induction pub generalizing c a with
  | nil => exact ⟨c, rfl, h⟩
  | cons b pub ih =>
    obtain ⟨c1, e1, s1⟩ := same_byte h b
    obtain ⟨c2, e2, s2⟩ := ih s1
    refine ⟨c2, ?_, s2⟩
    rw [List.foldlM_cons, e1]; exact e2

/-- The last eight writes and the final read, against the eight `set`s. -/
theorem on_tail {c : Buf Byte} {l : List Byte} (h : On (· < 56) c l) (x : BitVec 64) (dig : List (BitVec 32)) :
    (do
      let data ← store c 63 [x.setWidth 8]
      let data ← store data 62 [(x >>> 8).setWidth 8]
      let data ← store data 61 [(x >>> 16).setWidth 8]
      let data ← store data 60 [(x >>> 24).setWidth 8]
      let data ← store data 59 [(x >>> 32).setWidth 8]
      let data ← store data 58 [(x >>> 40).setWidth 8]
      let data ← store data 57 [(x >>> 48).setWidth 8]
      let data ← store data 56 [(x >>> 56).setWidth 8]
      let d ← load data 0 64
      .ok (SHA.plainChunkCompress dig d) : Res (List (BitVec 32))) =
    .ok (SHA.plainChunkCompress dig
      ((((((((l.set 63 (x.setWidth 8)).set 62 ((x >>> 8).setWidth 8)).set 61 ((x >>> 16).setWidth 8)).set 60
        ((x >>> 24).setWidth 8)).set 59 ((x >>> 32).setWidth 8)).set 58 ((x >>> 40).setWidth 8)).set 57
        ((x >>> 48).setWidth 8)).set 56 ((x >>> 56).setWidth 8))) := by
  obtain ⟨c1, e1, o1⟩ := on_store h 63 (by decide) (x.setWidth 8)
  obtain ⟨c2, e2, o2⟩ := on_store o1 62 (by decide) ((x >>> 8).setWidth 8)
  obtain ⟨c3, e3, o3⟩ := on_store o2 61 (by decide) ((x >>> 16).setWidth 8)
  obtain ⟨c4, e4, o4⟩ := on_store o3 60 (by decide) ((x >>> 24).setWidth 8)
  obtain ⟨c5, e5, o5⟩ := on_store o4 59 (by decide) ((x >>> 32).setWidth 8)
  obtain ⟨c6, e6, o6⟩ := on_store o5 58 (by decide) ((x >>> 40).setWidth 8)
  obtain ⟨c7, e7, o7⟩ := on_store o6 57 (by decide) ((x >>> 48).setWidth 8)
  obtain ⟨c8, e8, o8⟩ := on_store o7 56 (by decide) ((x >>> 56).setWidth 8)
  have hl := on_load (on_mono o8 (Q := (· < 64)) fun i hi => by omega)
  simp only [e1, e2, e3, e4, e5, e6, e7, e8, hl, okBind]

/-- The array `data` is never read before it is written, and never accessed outside its 64 cells. -/
theorem plainTailC_eq (g : List Byte) (hg : g.length = 64) (dig : List (BitVec 32)) (pub : List Byte) :
    plainTailC dig pub = .ok (plainTail g dig pub) := by
  have h0 : Same { dig := dig, data := alloc 64, datalen := 0, bitlen := 512 }
      { dig := dig, data := g, datalen := 0, bitlen := 512 } :=
    ⟨rfl, rfl, rfl, by show 0 < 64; decide, by simp [alloc], hg, fun i hi => absurd hi (by simp)⟩
  obtain ⟨c, e, h1, h2, h3, h4, h5⟩ := same_bytes h0 pub
  unfold plainTailC plainTail
  rw [e]
  generalize List.foldl plainByte { dig := dig, data := g, datalen := 0, bitlen := 512 } pub = a at *
  obtain ⟨d1, e1, o1⟩ := on_store h5 a.datalen h4 0x80
  have o1' : On (· < a.datalen + 1) d1 (a.data.set a.datalen 0x80) := on_mono o1 fun i hi => by
    by_cases h : i = a.datalen
    · exact Or.inr h
    · exact Or.inl (by omega)
  simp only [okBind, h1, h2, h3, e1]
  by_cases h56 : a.datalen < 56
  · obtain ⟨d2, e2, o2⟩ := on_zeroTo (a.datalen + 1) 56 o1' (by omega) (by decide)
    simp only [h56, if_true, e2, okBind]
    exact on_tail o2 _ _
  · obtain ⟨d2, e2, o2⟩ := on_zeroTo (a.datalen + 1) 64 o1' (by omega) (by decide)
    obtain ⟨d3, e3, o3⟩ := on_fill o2
    have hl := on_load o2
    simp only [h56, if_false, e2, e3, hl, okBind]
    exact on_tail o3 _ _

theorem optDigestC_eq (g : List Byte) (hg : g.length = 64) (s : Sha) (sec : Integer) (pub : List Byte) (n : Nat)
    (hn : n ≤ pub.length) (ri zk : Bool) :
    optDigestC s sec (given pub) n ri zk = s.optDigest g sec (pub.take n) ri zk := by
  unfold optDigestC Sha.optDigest Sha.optUpdate
  simp only [load_given pub n hn, okBind, plainTailC_eq g hg]

theorem optDigest_length {g : List Byte} {s : Sha} {sec : Integer} {pub : List Byte} {ri zk : Bool}
    {r : List (BitVec 32) × Sha} (h : s.optDigest g sec pub ri zk = .ok r) : r.1.length = 8 := by
  unfold Sha.optDigest Sha.optUpdate at h
  cases hf : s.optFirst sec ri zk with
  | error e => rw [hf] at h; exact absurd h (by simp [bind, Except.bind])
  | ok p =>
    rw [hf, okBind] at h
    injection h with h
    subst h
    exact Verif.Lemmas.Gate.plainTail_length _ _ _

theorem optHmacC_eq (g : List Byte) (hg : g.length = 64) (m : Hmac) (msg : List Byte) (n : Nat) (hn : n ≤ msg.length)
    (ri ro zk : Bool) : optHmacC m (given msg) n ri ro zk = m.optHmac g (msg.take n) ri ro zk := by
  unfold optHmacC Hmac.optHmac
  rw [optDigestC_eq g hg m.sha m.iKeyPad msg n hn]
  cases h : m.sha.optDigest g m.iKeyPad (msg.take n) ri zk with
  | error e => rfl
  | ok r =>
    have hl := optDigest_length h
    simp only [okBind, store_full r.1 8 hl, load_all r.1 8 hl]

theorem wordsToBytes_eq (w : List (BitVec 32)) (hw : w.length = 8) :
    wordsToBytes (given w) = .ok (given (w.flatMap wordBytes)) := by
  have key : ∀ n, n ≤ 8 → (List.range n).foldlM (fun (a : Buf Byte) j => do
      let w ← load (given w) j 1
      store a (4 * j) (w.flatMap SHA.wordBytes)) (alloc 32) =
      .ok (given ((w.take n).flatMap wordBytes) ++ alloc (32 - 4 * n)) := by
    intro n
    induction n with
    | zero => exact fun _ => by simp [given]; rfl
    | succ n ih =>
      intro hn
      have hlen : ∀ l : List (BitVec 32), (l.flatMap wordBytes).length = 4 * l.length := by
        intro l
        induction l with
        | nil => rfl
        | cons x l ih => rw [List.flatMap_cons, List.length_append, ih]; simp [wordBytes]; omega
      have hld : load (given w) n 1 = .ok [w[n]] := by
        refine load_ok' _ _ _ _ rfl ?_ (by rw [length_given]; omega)
        unfold given
        rw [← List.map_drop, ← List.map_take, List.drop_eq_getElem_cons (by omega)]
        rfl
      rw [List.range_succ, List.foldlM_append, ih (by omega), okBind, List.foldlM_cons]
      simp only [hld, okBind]
      rw [store_front _ _ _ _ (by rw [hlen, List.length_take]; omega) (by rw [hlen]; simp; omega)]
      rw [okBind, ← List.flatMap_append]
      have ht : w.take n ++ [w[n]] = w.take (n + 1) := by
        rw [List.take_add_one, List.getElem?_eq_getElem (by omega)]; rfl
      rw [ht, hlen]
      have : 32 - 4 * n - 4 * [w[n]].length = 32 - 4 * (n + 1) := by simp; omega
      rw [this]; rfl
  unfold wordsToBytes
  rw [key 8 (Nat.le_refl _)]
  rw [show w.take 8 = w by rw [← hw, List.take_length]]
  simp [alloc]

theorem store_overlay {α : Type} (b : Buf α) (x : List α) (h : x.length ≤ b.length) :
    store b 0 x = .ok (given x ++ b.drop x.length) := by
  unfold store
  rw [if_pos (by omega)]
  simp [given]

theorem store_end {α : Type} (l : List α) (b : Buf α) (x : List α) (k : Nat) (hk : l.length = k) (h : x.length = b.length) :
    store (given l ++ b) k x = .ok (given (l ++ x)) := by
  subst hk
  unfold store
  rw [if_pos (by simp [given]; omega)]
  have h1 : (given l ++ b).take l.length = given l := by
    rw [show l.length = (given l).length from (length_given l).symm, List.take_left]
  have h2 : (given l ++ b).drop (l.length + x.length) = [] := by
    rw [List.drop_eq_nil_iff]; simp [given]; omega
  rw [h1, h2]
  simp [given]

/-- The loop on arrays against the loop on lists: the arrays `tmpd` and `as` may hold anything. -/
theorem optPhashLoopC_eq (g : Nat → List Byte) (hg : ∀ i, (g i).length = 64) (seed : List Byte) (seedlen : Nat)
    (hs : seedlen ≤ seed.length) (ri ro zk : Bool) : ∀ (n : Nat) (p : Prf) (m : Hmac) (a : List Byte) (alen : Nat)
    (tmpd : Buf (BitVec 32)) (as : Buf Byte) (res : Integer), a.length = alen → tmpd.length = 8 → as.length = 32 + seedlen →
    (∀ w ∈ p.pubM, w.length = 8) →
    optPhashLoopC (given seed) seedlen ri ro zk n p m (given a) alen tmpd as res =
      optPhashLoop g (seed.take seedlen) ri ro zk n p m a res := by
  intro n
  induction n with
  | zero => intros; rfl
  | succ n ih =>
    intro p m a alen tmpd as res ha ht has hp
    unfold optPhashLoopC optPhashLoop
    rw [optHmacC_eq (g (2 * n + 1)) (hg _) m a alen (Nat.le_of_eq ha.symm), show a.take alen = a by rw [← ha, List.take_length]]
    cases h1 : m.optHmac (g (2 * n + 1)) a ri ro zk with
    | error e => rfl
    | ok r =>
      have next : ∀ (w : List (BitVec 32)) (p' : Prf), w.length = 8 → (∀ w ∈ p'.pubM, w.length = 8) →
          (do
            let a ← wordsToBytes (given w)
            let x ← load a 0 32
            let as ← store as 0 x
            let y ← load (given seed) 0 seedlen
            let as ← store as 32 y
            let (tmp, m) ← optHmacC r.2 as (32 + seedlen) ri ro zk
            optPhashLoopC (given seed) seedlen ri ro zk n { p' with calls := p'.calls + 1 } m a 32 (given w) as (concat res tmp)
            : Res (Integer × Prf × Hmac)) =
          (do
            let a := w.flatMap wordBytes
            let (tmp, m) ← r.2.optHmac (g (2 * n)) (a ++ seed.take seedlen) ri ro zk
            optPhashLoop g (seed.take seedlen) ri ro zk n { p' with calls := p'.calls + 1 } m a (concat res tmp)) := by
        intro w p' hw hp'
        have hlen : (w.flatMap wordBytes).length = 32 := by
          have : ∀ l : List (BitVec 32), (l.flatMap wordBytes).length = 4 * l.length := by
            intro l
            induction l with
            | nil => rfl
            | cons x l ih => rw [List.flatMap_cons, List.length_append, ih]; simp [wordBytes]; omega
          rw [this, hw]
        have hy : (seed.take seedlen).length = seedlen := by rw [List.length_take]; omega
        simp only [wordsToBytes_eq w hw, okBind, load_all _ 32 hlen, load_given seed seedlen hs]
        rw [store_overlay as _ (by omega)]
        simp only [okBind]
        rw [store_end _ _ _ 32 hlen (by rw [List.length_drop, hlen, hy, has]; omega)]
        simp only [okBind]
        rw [optHmacC_eq (g (2 * n)) (hg _) r.2 _ _ (by rw [List.length_append, hlen, hy]; exact Nat.le_refl _)]
        rw [show (w.flatMap wordBytes ++ seed.take seedlen).take (32 + seedlen) = w.flatMap wordBytes ++ seed.take seedlen by
          rw [List.take_of_length_le]; rw [List.length_append, hlen, hy]; exact Nat.le_refl _]
        cases h2 : r.2.optHmac (g (2 * n)) (w.flatMap wordBytes ++ seed.take seedlen) ri ro zk with
        | error e => rfl
        | ok q =>
          simp only [okBind]
          exact ih _ _ _ _ _ _ _ hlen (by rw [length_given, hw]) (by rw [length_given, List.length_append, hlen, hy]) hp'
      simp only [okBind]
      cases zk with
      | false =>
        have hw : (revealWords r.1).length = 8 := by simp [revealWords]
        simp only [Bool.not_false, if_true]
        rw [store_whole tmpd _ (by rw [hw, ht])]
        simp only [okBind, load_all _ 8 hw, store_full _ 8 hw]
        refine next (revealWords r.1) { p with calls := p.calls + 1, pubM := p.pubM ++ [revealWords r.1] } hw ?_
        intro w hw'
        rcases List.mem_append.1 hw' with h | h
        · exact hp w h
        · rw [List.mem_singleton.1 h]; exact hw
      | true =>
        simp only [Bool.not_true, Bool.false_eq_true, if_false]
        cases h3 : p.pubM[p.zkPos]? with
        | none => rfl
        | some w =>
          have hw : w.length = 8 := hp w (List.mem_of_getElem? h3)
          simp only [load_all _ 8 hw, okBind]
          rw [store_whole tmpd _ (by rw [hw, ht])]
          simp only [okBind]
          exact next w { p with calls := p.calls + 1, zkSecM := p.zkSecM ++ [reverseConcat [] r.1], zkPos := p.zkPos + 1 } hw hp

theorem optPhashC_eq (g : Nat → List Byte) (hg : ∀ i, (g i).length = 64) (p : Prf) (m : Hmac) (res : Integer) (bitlen : Nat)
    (seed : List Byte) (seedlen : Nat) (hs : seedlen ≤ seed.length) (ri ro zk : Bool) (hp : ∀ w ∈ p.pubM, w.length = 8) :
    optPhashC p m res bitlen (given seed) seedlen ri ro zk = p.optPhash m g res bitlen (seed.take seedlen) ri ro zk := by
  have hy : (seed.take seedlen).length = seedlen := by rw [List.length_take]; omega
  unfold optPhashC Prf.optPhash
  simp only [load_given seed seedlen hs, okBind, store_full _ seedlen hy]
  rw [optPhashLoopC_eq g hg seed seedlen hs ri ro zk _ p m _ seedlen _ _ res hy (length_alloc _) (length_alloc _) hp]

end Verif.Model.Buffers
