import Verif.Lemmas.DependSha
import Verif.Lemmas.HsRef

/-! HMAC, the PRF and the key schedule: which wires depend on an input. -/

namespace Verif.Lemmas.Gate
open Verif.Model Verif.Model.Gate Verif.Spec.Circuit

/-- The 32 most significant bits depend on an input. -/
def Top (s : Sess) (x : SInt) : Prop := 32 ≤ x.length ∧ ∀ i, x.length ≤ i + 32 → i < x.length → dAt s x i

theorem Top.mono {s t : Sess} (e : DExt s t) {x : SInt} (h : Top s x) : Top t x := ⟨h.1, fun i a b => (h.2 i a b).mono e⟩

theorem Top.append {s : Sess} {x : SInt} (h : Top s x) (y : SInt) : Top s (y ++ x) := by
  refine ⟨by rw [List.length_append]; have := h.1; omega, fun i a b => ?_⟩
  have h1 := h.1
  rw [List.length_append] at a b
  rw [dAt_append_right (by omega)]
  exact h.2 _ (by omega) (by omega)

theorem Top.of_dp {s : Sess} {x : SInt} (h : Dp s x) (hl : 32 ≤ x.length) : Top s x := ⟨hl, fun _ _ hi => h.at hi⟩

theorem inputWords_eq (x : SInt) :
    inputWordsG x = .ok ((List.range (x.length / 32)).map fun i => (x.drop (x.length - i * 32 - 32)).take 32) := by
  unfold inputWordsG
  refine mapM_ok _ _ _ fun i hi => ?_
  rw [List.mem_range] at hi
  unfold Gate.extractInteger
  rw [if_pos (by omega)]

theorem word_len (x : SInt) (i : Nat) (hi : i < x.length / 32) : ((x.drop (x.length - i * 32 - 32)).take 32).length = 32 := by
  rw [List.length_take, List.length_drop]; omega

theorem word_top {s : Sess} {x : SInt} (h : Top s x) : Dp s ((x.drop (x.length - 0 * 32 - 32)).take 32) := by
  refine Dp.take (Dp.of_at fun i hi => ?_) 32
  have h1 := h.1
  rw [List.length_drop] at hi
  have := h.2 (x.length - 0 * 32 - 32 + i) (by omega) (by omega)
  unfold dAt bitAt at this ⊢
  simp only [List.getD_eq_getElem?_getD, List.getElem?_drop] at this ⊢
  exact this

theorem data_get (x : SInt) (i : Nat) (hi : i < x.length / 32) :
    ((List.range (x.length / 32)).map fun i => (x.drop (x.length - i * 32 - 32)).take 32).getD i [] = (x.drop (x.length - i * 32 - 32)).take 32 := by
  rw [List.getD_eq_getElem?_getD, List.getElem?_map, List.getElem?_range hi]
  rfl

/-- The words of a chunk. -/
theorem chunk_words {s : Sess} (x : SInt) (c : Nat) (hc : c * 16 + 16 ≤ x.length / 32) :
    Ws s (List.replicate 16 false) ((List.range 16).map fun t =>
      ((List.range (x.length / 32)).map fun i => (x.drop (x.length - i * 32 - 32)).take 32).getD (t + c * 512 / 32) []) := by
  rw [show List.replicate 16 false = (List.range 16).map fun _ => false from rfl]
  unfold Ws
  rw [List.forall₂_map_left_iff, List.forall₂_map_right_iff]
  refine List.forall₂_same.2 fun t ht => ?_
  rw [List.mem_range] at ht
  have : t + c * 512 / 32 < x.length / 32 := by omega
  rw [data_get x _ this]
  exact ⟨word_len x _ this, fun h => by cases h⟩

/-- The words of the first chunk, the first one secret. -/
theorem first_words {s : Sess} {x : SInt} (h : Top s x) (hc : 16 ≤ x.length / 32) :
    Ws s (true :: List.replicate 15 false) ((List.range 16).map fun t =>
      ((List.range (x.length / 32)).map fun i => (x.drop (x.length - i * 32 - 32)).take 32).getD t []) := by
  rw [show true :: List.replicate 15 false = (List.range 16).map fun t => t == 0 from rfl]
  unfold Ws
  rw [List.forall₂_map_left_iff, List.forall₂_map_right_iff]
  refine List.forall₂_same.2 fun t ht => ?_
  rw [List.mem_range] at ht
  have : t < x.length / 32 := by omega
  rw [data_get x _ this]
  refine ⟨word_len x _ this, fun h0 => ?_⟩
  have : t = 0 := by simpa using h0
  subst this
  exact word_top h

theorem sec_inputWords {s : Sess} (x : SInt) : Sec s (lift (inputWordsG x))
    (fun _ d => d = (List.range (x.length / 32)).map fun i => (x.drop (x.length - i * 32 - 32)).take 32) :=
  Sec.lift fun a e => by rw [inputWords_eq] at e; cases e; rfl

section
variable {L : Lib} (hL : LibDep L)
include hL

/-- The constants of an object. -/
structure Consts (g : ShaG) : Prop where
  h : ∀ s, Ws s (List.replicate 8 false) g.h
  k : ∀ i < 64, ∀ s, Wd s false (g.k.getD i [])

omit hL in
theorem consts_h (l : List Nat) (hl : l.length = 8) (s : Sess) : Ws s (List.replicate 8 false) (l.map wordG) := by
  rw [← hl]
  clear hl
  induction l with
  | nil => exact .nil
  | cons a l ih => exact .cons (Wd.pub a) ih

omit hL in
theorem consts_k (l : List Nat) (hl : l.length = 64) (i : Nat) (hi : i < 64) (s : Sess) : Wd s false ((l.map wordG).getD i []) := by
  rw [List.getD_eq_getElem?_getD, List.getElem?_map, List.getElem?_eq_getElem (by omega)]
  exact Wd.pub _

omit hL in
theorem Consts.new : Consts {} := ⟨consts_h _ (by decide), consts_k _ (by decide)⟩

omit hL in
theorem Consts.refresh (g : ShaG) : Consts g.refresh := ⟨consts_h _ (by decide), consts_k _ (by decide)⟩

/-- The stored states depend on an input (`rounds`: also the inner one). -/
structure DS (rounds : Bool) (s : Sess) (g : ShaG) : Prop where
  consts : Consts g
  out : g.gcOut = true → Full s g.ivOut
  inn : rounds = true → g.gcIn = true → Full s g.ivInSec

omit hL in
theorem DS.mono {rounds : Bool} {s t : Sess} (e : DExt s t) {g : ShaG} (h : DS rounds s g) : DS rounds t g :=
  ⟨h.consts, fun x => (h.out x).mono e, fun x y => (h.inn x y).mono e⟩

theorem sec_chunkLoop {s : Sess} {g : ShaG} (hg : Consts g) (x : SInt) {dig : List SInt} (hd : Full s dig) :
    Sec s (chunkLoopG L g.k ((List.range (x.length / 32)).map fun i => (x.drop (x.length - i * 32 - 32)).take 32) (x.length / 512) dig)
      (fun t r => Full t r) := by
  unfold chunkLoopG
  refine (Sec.foldRange (β := Unit) (g := fun _ _ => ()) (b := ()) (R := fun _ t d _ => Full t d) _ ?_ hd)
  intro s a b i hi r
  have := Sec.chunkCompress hL hg.k r rfl (chunk_words x (i + 1) (by omega)) (by rfl)
  rwa [compressF_state] at this

theorem sec_update {rounds : Bool} {s : Sess} {g : ShaG} (hg : DS rounds s g) {x : SInt} (hx : Top s x) (ro : Bool) :
    Sec s (g.update L x ro) (fun t p => Full t p.1 ∧ DS rounds t p.2) := by
  unfold ShaG.update
  by_cases h1 : x.length % 512 ≠ 0
  · rw [if_pos h1]; exact Sec.fail
  rw [if_neg h1]
  refine Sec.bind (sec_inputWords x) fun d u e hd => ?_
  subst hd
  replace hg := hg.mono e
  replace hx := hx.mono e
  clear e
  by_cases h2 : x.length / 512 = 0
  · rw [if_pos h2]; exact Sec.fail
  rw [if_neg h2]
  have hc : Sec u (chunkCompressG L g.k g.h ((List.range 16).map fun t =>
      ((List.range (x.length / 32)).map fun i => (x.drop (x.length - i * 32 - 32)).take 32).getD t [])) (fun t r => Full t r) := by
    have := Sec.chunkCompress hL hg.consts.k (hg.consts.h u) (by rfl) (first_words hx (by omega)) (by rfl)
    rwa [compressF_word] at this
  refine Sec.bind (R := fun t p => Full t p.1 ∧ DS rounds t p.2) ?_ fun p v e hp => ?_
  · unfold ShaG.firstOut
    split
    · split
      · rename_i h; exact Sec.pure ⟨hg.out h, hg⟩
      · refine Sec.bind hc fun dig w e hd => Sec.pure ⟨hd, ⟨hg.consts.h, hg.consts.k⟩, fun _ => hd, fun a b => (hg.inn a b).mono e⟩
    · exact Sec.bind hc fun dig w e hd => Sec.pure ⟨hd, hg.mono e⟩
  · obtain ⟨dig, g'⟩ := p
    refine Sec.bind (sec_chunkLoop hL hp.2.consts x hp.1) fun r w e' hr => ?_
    exact Sec.pure ⟨hr, hp.2.mono e'⟩

theorem sec_roundsUpdate {s : Sess} {g : ShaG} (hg : DS true s g) {x : SInt} (hx : Top s x) (ri : Bool) :
    Sec s (g.optRoundsUpdate L x ri) (fun t p => Full t p.1 ∧ DS true t p.2) := by
  unfold ShaG.optRoundsUpdate
  by_cases h1 : x.length % 512 ≠ 0
  · rw [if_pos h1]; exact Sec.fail
  rw [if_neg h1]
  refine Sec.bind (sec_inputWords x) fun d u e hd => ?_
  subst hd
  replace hg := hg.mono e
  replace hx := hx.mono e
  clear e
  by_cases h2 : x.length / 512 = 0
  · rw [if_pos h2]; exact Sec.fail
  rw [if_neg h2]
  have hc : Sec u (chunkCompressG L g.k g.h ((List.range 16).map fun t =>
      ((List.range (x.length / 32)).map fun i => (x.drop (x.length - i * 32 - 32)).take 32).getD t [])) (fun t r => Full t r) := by
    have := Sec.chunkCompress hL hg.consts.k (hg.consts.h u) (by rfl) (first_words hx (by omega)) (by rfl)
    rwa [compressF_word] at this
  refine Sec.bind (R := fun t p => Full t p.1 ∧ DS true t p.2) ?_ fun p v e hp => ?_
  · unfold ShaG.firstIn
    split
    · split
      · rename_i h; exact Sec.pure ⟨hg.inn rfl h, hg⟩
      · refine Sec.bind hc fun dig w e hd => Sec.pure ⟨hd, ⟨hg.consts.h, hg.consts.k⟩, fun a => (hg.out a).mono e, fun _ _ => hd⟩
    · exact Sec.bind hc fun dig w e hd => Sec.pure ⟨hd, hg.mono e⟩
  · obtain ⟨dig, g'⟩ := p
    refine Sec.bind (sec_chunkLoop hL hp.2.consts x hp.1) fun r w e' hr => ?_
    exact Sec.pure ⟨hr, hp.2.mono e'⟩

omit hL in
theorem Top.padding {s : Sess} {x : SInt} (h : Top s x) : Top s (paddingG x) := by
  unfold paddingG Gate.concat
  simp only [List.foldl_cons, List.foldl_nil]
  exact ((h.append _).append _).append _

theorem sec_digest {rounds : Bool} {s : Sess} {g : ShaG} (hg : DS rounds s g) {x : SInt} (hx : Top s x) (ro : Bool) :
    Sec s (g.digest L x ro) (fun t p => Full t p.1 ∧ DS rounds t p.2) := sec_update hL hg hx.padding ro

theorem sec_roundsDigest {s : Sess} {g : ShaG} (hg : DS true s g) {x : SInt} (hx : Top s x) (ri : Bool) :
    Sec s (g.optRoundsDigest L x ri) (fun t p => Full t p.1 ∧ DS true t p.2) := sec_roundsUpdate hL hg hx.padding ri

omit hL in
theorem concat_top {s : Sess} {x : SInt} (h : Top s x) (l : List SInt) : Top s (concat x l) := by
  unfold Gate.concat
  induction l generalizing x with
  | nil => exact h
  | cons a l ih => exact ih (h.append a)

omit hL in
theorem concat_dp {s : Sess} {x : SInt} (h : Dp s x) {l : List SInt} (hl : ∀ y ∈ l, Dp s y) : Dp s (concat x l) := by
  unfold Gate.concat
  induction l generalizing x with
  | nil => exact h
  | cons a l ih => exact ih ((hl a List.mem_cons_self).append h) fun y hy => hl y (List.mem_cons_of_mem _ hy)

omit hL in
theorem concat_length {x : SInt} {l : List SInt} (hl : ∀ y ∈ l, y.length = 32) : (concat x l).length = x.length + 32 * l.length := by
  unfold Gate.concat
  induction l generalizing x with
  | nil => simp
  | cons a l ih =>
    rw [List.foldl_cons, ih fun y hy => hl y (List.mem_cons_of_mem _ hy), List.length_append, hl a List.mem_cons_self, List.length_cons]
    omega

omit hL in
theorem Full.all {s : Sess} {x : List SInt} (h : Full s x) : x.length = 8 ∧ (∀ y ∈ x, Dp s y) ∧ ∀ y ∈ x, y.length = 32 := by
  refine ⟨by rw [← h.length_eq]; rfl, fun y hy => ?_, fun y hy => ?_⟩
  · obtain ⟨i, hi, rfl⟩ := List.getElem_of_mem hy
    have hi8 : i < 8 := by rw [← h.length_eq] at hi; exact hi
    have := h.get (i := i) hi8
    rw [List.getD_eq_getElem?_getD, List.getD_eq_getElem?_getD, List.getElem?_eq_getElem hi, List.getElem?_replicate, if_pos hi8] at this
    exact this.2 rfl
  · obtain ⟨i, hi, rfl⟩ := List.getElem_of_mem hy
    have hi8 : i < 8 := by rw [← h.length_eq] at hi; exact hi
    have := h.get (i := i) hi8
    rw [List.getD_eq_getElem?_getD, List.getD_eq_getElem?_getD, List.getElem?_eq_getElem hi] at this
    exact this.1

/-- A keyed HMAC object. -/
structure DH (rounds : Bool) (s : Sess) (m : HmacG) : Prop where
  sha : DS rounds s m.sha
  o : Top s m.oKeyPad
  i : Top s m.iKeyPad

omit hL in
theorem DH.mono {rounds : Bool} {s t : Sess} (e : DExt s t) {m : HmacG} (h : DH rounds s m) : DH rounds t m :=
  ⟨h.sha.mono e, h.o.mono e, h.i.mono e⟩

omit hL in
theorem sec_padConst {s : Sess} : Sec s padConstG (fun _ p => p.1.length = 512 ∧ p.2.length = 512) := by
  unfold padConstG
  refine Sec.foldlM (R := fun _ (p : SInt × SInt) => p.1.length = 512 ∧ p.2.length = 512) ?_ _ ⟨by simp [pubInt], by simp [pubInt]⟩
  intro s p _ r
  refine Sec.bind (Sec.xorI _ _) fun o u e ho => ?_
  refine Sec.bind (Sec.xorI _ _) fun i u e hi => ?_
  refine Sec.pure ⟨?_, ?_⟩
  · rw [ho.1, length_shl, r.1]; simp [pubInt]
  · rw [hi.1, length_shl, r.2]; simp [pubInt]

omit hL in
theorem sec_xorTop {s : Sess} {x y : SInt} (hx : Top s x) (hl : x.length = 512) (hy : y.length = 512) : Sec s (xorI x y) (fun t r => Top t r) := by
  refine (Sec.xorI x y).mono fun t r e h => ?_
  rw [hl, hy] at h
  have hr : r.length = 512 := h.1
  refine ⟨by omega, fun i a b => h.2 i (by rw [← h.1]; exact b) (Or.inl ?_)⟩
  exact hx.2 i (by omega) (by omega)

/-- Keying with at least 32 secret bits. -/
theorem sec_init (rounds : Bool) {s : Sess} (m : HmacG) {key : SInt} (hk : Dp s key) (hl : 32 ≤ key.length) :
    Sec s (m.init L key) (fun t m' => DH rounds t m') := by
  have hr : DS rounds s m.sha.refresh := ⟨Consts.refresh _, fun (h : false = true) => (Bool.false_ne_true h).elim, fun _ (h : false = true) => (Bool.false_ne_true h).elim⟩
  unfold HmacG.init
  refine Sec.bind (R := fun t p => (Top t p.1 ∧ p.1.length = 512) ∧ DS rounds t p.2) ?_ fun p u e hp => ?_
  · unfold padKeyG
    split
    · refine Sec.bind (sec_digest hL hr (Top.of_dp hk hl) false) fun p u e hp => ?_
      obtain ⟨tmp, g⟩ := p
      obtain ⟨hp, hg⟩ := hp
      obtain ⟨h1, h2, h3⟩ := Full.all hp
      have hlen : (concat [] tmp).length = 256 := by rw [concat_length h3, h1]; rfl
      refine Sec.pure ⟨⟨concat_top (Top.of_dp (concat_dp Dp.nil h2) (by show 32 ≤ (Gate.concat [] tmp).length; omega)) _, ?_⟩, hg⟩
      show (pubInt (512 - 8 * 32) 0 ++ concat [] tmp).length = 512
      rw [List.length_append, hlen]; simp [pubInt]
    · refine Sec.pure ⟨⟨concat_top (Top.of_dp hk hl) _, ?_⟩, hr⟩
      show (pubInt (512 - key.length) 0 ++ key).length = 512
      rw [List.length_append]; simp [pubInt]; omega
  · obtain ⟨pk, g⟩ := p
    obtain ⟨⟨h1, h2⟩, hg⟩ := hp
    refine Sec.bind sec_padConst fun p u1 e1 hp => ?_
    obtain ⟨o, i⟩ := p
    refine Sec.bind (sec_xorTop (h1.mono e1) h2 hp.1) fun o' u2 e2 ho => ?_
    refine Sec.bind (sec_xorTop (h1.mono (e1.trans e2)) h2 hp.2) fun i' u3 e3 hi => ?_
    exact Sec.pure ⟨hg.mono (e1.trans (e2.trans e3)), ho.mono e3, hi⟩

omit hL in
theorem sec_feedWords (l : List (BitVec 32)) : ∀ {s : Sess}, Sec s (feedWords l) (fun _ _ => True) := by
  induction l with
  | nil => intro s; exact Sec.pure trivial
  | cons d l ih =>
    intro s
    exact Sec.bind (Sec.feed (by decide) _) fun _ _ _ _ => Sec.bind ih fun _ _ _ _ => Sec.pure trivial

theorem sec_optFirst {s : Sess} {g : ShaG} (hg : DS false s g) (x : SInt) (ri : Bool) :
    Sec s (g.optFirst L x ri) (fun t p => DS false t p.2) := by
  unfold ShaG.optFirst
  by_cases h1 : x.length ≠ 512
  · rw [if_pos h1]; exact Sec.fail
  rw [if_neg h1]
  have h512 : x.length = 512 := by omega
  refine Sec.bind (sec_inputWords x) fun d u e hd => ?_
  subst hd
  replace hg := hg.mono e
  clear e
  have hw : Ws u (List.replicate 16 false) ((List.range (x.length / 32)).map fun i => (x.drop (x.length - i * 32 - 32)).take 32) := by
    rw [h512, show List.replicate 16 false = (List.range (512 / 32)).map fun _ => false from rfl]
    unfold Ws
    rw [List.forall₂_map_left_iff, List.forall₂_map_right_iff]
    refine List.forall₂_same.2 fun t ht => ?_
    rw [List.mem_range] at ht
    have := word_len x t (by rw [h512]; exact ht)
    rw [h512] at this
    exact ⟨this, fun h => by cases h⟩
  have hc : Sec u (g.compressOpen L ((List.range (x.length / 32)).map fun i => (x.drop (x.length - i * 32 - 32)).take 32)) (fun _ _ => True) := by
    refine Sec.bind (Sec.chunkCompress hL hg.consts.k (hg.consts.h u) (by rfl) hw (by rfl)) fun dig w e hd => ?_
    exact Sec.bind (Sec.reveal _ _) fun _ _ _ _ => Sec.pure trivial
  split
  · split
    · exact Sec.bind hc fun dig w e _ => Sec.pure ⟨⟨hg.consts.h, hg.consts.k⟩, fun a => (hg.out a).mono e, fun a => by cases a⟩
    · split
      · exact Sec.pure hg
      · exact Sec.fail
  · exact Sec.bind hc fun dig w e _ => Sec.pure (hg.mono e)

theorem sec_optHmac {s : Sess} {m : HmacG} (hm : DH false s m) (garbage msg : List Byte) (ri ro : Bool) :
    Sec s (m.optHmac L garbage msg ri ro) (fun t p => Full t p.1 ∧ DH false t p.2) := by
  unfold HmacG.optHmac
  refine Sec.bind (R := fun t p => DS false t p.2) ?_ fun p u e hp => ?_
  · unfold ShaG.optDigest
    refine Sec.bind (sec_optFirst hL hm.sha _ ri) fun p u e hp => ?_
    obtain ⟨dig, g⟩ := p
    exact Sec.pure hp
  · obtain ⟨dig, g⟩ := p
    refine Sec.bind (sec_feedWords dig) fun w u1 e1 _ => ?_
    refine Sec.bind (sec_digest hL (hp.mono e1) (concat_top (hm.o.mono (e.trans e1)) w) ro) fun p u2 e2 hp => ?_
    obtain ⟨r, g⟩ := p
    exact Sec.pure ⟨hp.1, hp.2, hm.o.mono (e.trans (e1.trans e2)), hm.i.mono (e.trans (e1.trans e2))⟩

theorem sec_roundsHmac {s : Sess} {m : HmacG} (hm : DH true s m) (msg : SInt) (ri ro : Bool) :
    Sec s (m.optRoundsHmac L msg ri ro) (fun t p => Full t p.1 ∧ DH true t p.2) := by
  unfold HmacG.optRoundsHmac
  refine Sec.bind (sec_roundsDigest hL hm.sha (concat_top hm.i [msg]) ri) fun p u e hp => ?_
  obtain ⟨tmp, g⟩ := p
  refine Sec.bind (sec_digest hL hp.2 (concat_top (hm.o.mono e) tmp) ro) fun p u2 e2 hp => ?_
  obtain ⟨r, g⟩ := p
  exact Sec.pure ⟨hp.1, hp.2, hm.o.mono (e.trans e2), hm.i.mono (e.trans e2)⟩

omit hL in
theorem out_step {s : Sess} {res : SInt} {tmp : List SInt} (hr : Dp s res) (ht : Full s tmp) :
    Dp s (concat res tmp) ∧ (concat res tmp).length = res.length + 256 := by
  obtain ⟨h1, h2, h3⟩ := Full.all ht
  refine ⟨concat_dp hr h2, ?_⟩
  rw [concat_length h3, h1]

theorem sec_optPhash (g : Nat → List Byte) (seed : List Byte) (ri ro : Bool) : ∀ (n : Nat) {s : Sess} {m : HmacG} (a : List Byte) {res : SInt},
    DH false s m → Dp s res → Sec s (optPhashG L g seed ri ro n m a res)
      (fun t p => Dp t p.1 ∧ p.1.length = res.length + 256 * n ∧ DH false t p.2) := by
  intro n
  induction n with
  | zero => intro s m a res hm hr; exact Sec.pure ⟨hr, rfl, hm⟩
  | succ n ih =>
    intro s m a res hm hr
    unfold optPhashG
    refine Sec.bind (sec_optHmac hL hm _ _ ri ro) fun p u e hp => ?_
    obtain ⟨tmp, m⟩ := p
    refine Sec.bind (R := fun _ _ => True) (Sec.bind (Sec.reveal _ _) fun _ _ _ _ => Sec.pure trivial) fun d u1 e1 _ => ?_
    refine Sec.bind (sec_optHmac hL (hp.2.mono e1) _ _ ri ro) fun p u2 e2 hp => ?_
    obtain ⟨tmp, m⟩ := p
    obtain ⟨h1, h2⟩ := out_step (hr.mono (e.trans (e1.trans e2))) hp.1
    refine (ih _ hp.2 h1).mono fun t p _ h => ⟨h.1, ?_, h.2.2⟩
    rw [h.2.1, h2]; omega

theorem sec_roundsPhash (seed : SInt) (ri ro : Bool) : ∀ (n : Nat) {s : Sess} {m : HmacG} (a : SInt) {res : SInt},
    DH true s m → Dp s res → Sec s (roundsPhashG L seed ri ro n m a res)
      (fun t p => Dp t p.1 ∧ p.1.length = res.length + 256 * n ∧ DH true t p.2) := by
  intro n
  induction n with
  | zero => intro s m a res hm hr; exact Sec.pure ⟨hr, rfl, hm⟩
  | succ n ih =>
    intro s m a res hm hr
    unfold roundsPhashG
    refine Sec.bind (sec_roundsHmac hL hm _ ri ro) fun p u e hp => ?_
    obtain ⟨tmp, m⟩ := p
    refine Sec.bind (sec_roundsHmac hL hp.2 _ ri ro) fun p u2 e2 hp => ?_
    obtain ⟨tmp, m⟩ := p
    obtain ⟨h1, h2⟩ := out_step (hr.mono (e.trans e2)) hp.1
    refine (ih _ hp.2 h1).mono fun t p _ h => ⟨h.1, ?_, h.2.2⟩
    rw [h.2.1, h2]; omega

/-- The PRF call of a handshake. -/
theorem sec_prfCall {s : Sess} {h : HsG} (hm : DH h.roundsOpt s h.hmac) (g : Nat → List Byte) {res : SInt} (hr : Dp s res) (bitlen : Nat)
    (label seed : List Byte) : Sec s (h.prfCall L g res bitlen label seed) (fun t p => Dp t p.1
      ∧ p.1.length = res.length + 256 * SHA.prfBlocks bitlen - (SHA.prfBlocks bitlen * (8 * 32) - bitlen)
      ∧ DH h.roundsOpt t p.2.hmac ∧ p.2 = { h with hmac := p.2.hmac }) := by
  unfold HsG.prfCall
  refine Sec.bind (R := fun t p => Dp t p.1 ∧ p.1.length = res.length + 256 * SHA.prfBlocks bitlen - (SHA.prfBlocks bitlen * (8 * 32) - bitlen)
    ∧ DH h.roundsOpt t p.2) ?_ fun p u e hp => ?_
  · unfold HsG.prfSel
    cases hro : h.roundsOpt with
    | false =>
      rw [hro] at hm
      simp only [Bool.not_false, if_true]
      unfold optComputeG
      refine Sec.bind (sec_optPhash hL _ _ _ _ _ _ hm hr) fun p u e hp => ?_
      obtain ⟨r, m⟩ := p
      refine Sec.pure ⟨hp.1.drop _, ?_, hp.2.2⟩
      show (List.drop _ r).length = _
      rw [List.length_drop, hp.2.1]
    | true =>
      rw [hro] at hm
      simp only [Bool.not_true, Bool.false_eq_true, if_false]
      unfold roundsComputeG
      refine Sec.bind (Sec.feed (by decide) _) fun a u e _ => ?_
      refine Sec.bind (sec_roundsPhash hL _ _ _ _ _ (hm.mono e) (hr.mono e)) fun p u e hp => ?_
      obtain ⟨r, m⟩ := p
      refine Sec.pure ⟨hp.1.drop _, ?_, hp.2.2⟩
      show (List.drop _ r).length = _
      rw [List.length_drop, hp.2.1]
  · obtain ⟨r, m⟩ := p
    exact Sec.pure ⟨hp.1, hp.2.1, hp.2.2, rfl⟩

theorem sec_addmod {s : Sess} {a b : SInt} (q : Nat) (ha : Dp s a) (hl : a.length = b.length) (hq : a.length = 8 * bnNumBytes q) :
    Sec s (addmodG L a b q) (fun t r => Dp t r ∧ r.length = a.length) := by
  unfold addmodG
  dsimp only
  refine Sec.bind (hL.add s _ _ (by simp [hl])) fun c u e hc => ?_
  simp only [List.length_append, List.length_cons, List.length_nil] at hc
  have hQ : (pubBytes (bn2bin q).reverse ++ [Wire.pub false] ++ [Wire.pub false]).length = a.length + 2 := by
    have hb : (bn2bin q).length = bnNumBytes q := rfl
    simp only [pubBytes, List.length_append, List.length_map, length_ofBytes, List.length_reverse, hb, List.length_cons, List.length_nil, hq]
  refine Sec.bind (hL.geq u _ _) fun w u1 e1 _ => ?_
  refine Sec.bind (hL.sub u1 _ _ (by rw [hQ, List.length_append, hc.1]; rfl)) fun d u2 e2 hd => ?_
  have hd : d.length = a.length + 2 := by rw [hd, List.length_append, hc.1]; rfl
  refine Sec.bind (hL.select u2 _ w d (by rw [hd, List.length_append, hc.1]; rfl)) fun r u3 e3 hr => ?_
  have hrl : r.length = a.length + 2 := by rw [hr.1, List.length_append, hc.1]; rfl
  have hlen : r.dropLast.dropLast.length = a.length := by rw [List.length_dropLast, List.length_dropLast]; omega
  refine Sec.pure ⟨Dp.of_at fun i hi => ?_, hlen⟩
  rw [hlen] at hi
  have h1 : dAt u c i := hc.2 i (Or.inl ((dAt_append_left hi).mpr (ha.at hi)))
  have h2 := hr.2 i ((dAt_append_left (by rw [hc.1]; omega)).mpr (h1.mono (e1.trans e2)))
  unfold dAt bitAt at h2 ⊢
  rw [List.getD_eq_getElem?_getD] at h2 ⊢
  rw [List.getElem?_dropLast, List.length_dropLast, if_pos (by omega), List.getElem?_dropLast, if_pos (by omega)]
  exact h2

theorem sec_keyFromShares {s : Sess} (h : HsG) (hq : 4 ≤ bnNumBytes h.q) (a b : Nat) :
    Sec s (h.keyFromShares L a b) (fun t h' => DH h.roundsOpt t h'.hmac ∧ h' = { h with hmac := h'.hmac }) := by
  unfold HsG.keyFromShares
  refine Sec.bind (Sec.lift (R := fun _ x => x.length = bnNumBytes h.q) fun x e => ref_bnBuffer_length e) fun x u e hx => ?_
  refine Sec.bind (Sec.lift (R := fun _ x => x.length = bnNumBytes h.q) fun x e => ref_bnBuffer_length e) fun y u1 e1 hy => ?_
  refine Sec.bind (Sec.feed (by decide) _) fun A u2 e2 hA => ?_
  refine Sec.bind (Sec.feed (by decide) _) fun B u3 e3 hB => ?_
  rw [length_ofBytes, hx] at hA
  rw [length_ofBytes, hy] at hB
  refine Sec.bind (sec_addmod hL h.q (hA.2.mono e3) (by rw [hA.1, hB.1]) hA.1) fun pms u4 e4 hp => ?_
  refine Sec.bind (sec_init hL h.roundsOpt h.hmac hp.1 (by rw [hp.2, hA.1]; omega)) fun m u5 e5 hm => ?_
  exact Sec.pure ⟨hm, rfl⟩

end

end Verif.Lemmas.Gate
