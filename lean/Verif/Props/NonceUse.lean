import Verif.Props.Forgery

/-!
C64: what the records of a connection say about the messages.  Under nonces used once the number of block ciphers under which `AEAD::encrypt` produces the records that were seen is the
same for all messages of the same lengths.  `encrypt` does not refuse a nonce that was used before, and then the claim fails: the difference of two messages is seen, and the records
leave few candidates for the hash key, each of which gives the tags of all further records under that nonce.
-/

namespace Verif.Props.NonceUse
open Verif.Model Verif.Model.Integer Verif.Model.AEAD Verif.Lemmas Verif.Lemmas.GHash Verif.Props.Forgery
open Verif.Spec (gcmGhash)
open Verif.Spec.GCM (hashInput blocks blockOf bytesOf j0 counter inc32 keyStream crypt tagWith tag)

/-- With the block cipher `E` under the session key, `AEAD::encrypt` (aead.h:169-306) of this message, in some state that calls of the API reach and in either mode, gives ALICE this
ciphertext and tag. -/
def Seals (hash : List Byte → List Byte) (E : Block → Block) (fiv : List Byte) (s : Bool) (r : Sent) : Prop :=
  ∃ st secret msgB m raw0 raw1 st' b, Reach hash E fiv s st ∧ (secret = false → msgB = r.msg)
    ∧ AEAD.encrypt s st r.msg msgB r.aad r.iv secret m raw0 raw1 = .ok (st', ⟨r.ctxt, r.tag⟩, b)

theorem seals_iff (hash : List Byte → List Byte) (E : Block → Block) (fiv : List Byte) (hf : fiv.length = 4) (s : Bool) (r : Sent) (hiv : r.iv.length = 8) :
    Seals hash E fiv s r ↔ Spec.GCM.encrypt E (fiv ++ r.iv) r.aad r.msg = (r.ctxt, r.tag) := by
  constructor
  · rintro ⟨st, secret, msgB, m, raw0, raw1, st', b, h1, h2, h3⟩
    obtain ⟨st2, c, t, h4, h5⟩ := C26_encrypt hf h1 r.msg msgB r.aad r.iv hiv secret h2 m raw0 raw1
    rw [h3] at h4
    simp only [Except.ok.injEq, Prod.mk.injEq, Sealed.mk.injEq] at h4
    rw [← h5, h4.2.1.1, h4.2.1.2]
  · intro h
    obtain ⟨st, h1, -⟩ := construct_eq E (strToInt fiv) s (fun _ => true) 1 (fun _ => 0) (fun _ => 0)
    have hr : Reach hash E fiv s st := Reach.construct (by decide) h1
    obtain ⟨st2, c, t, h4, h5⟩ := C26_encrypt hf hr r.msg r.msg r.aad r.iv hiv true (fun _ => rfl) (fun _ => true) (fun _ => 0) (fun _ => 0)
    rw [h, Prod.mk.injEq] at h5
    rw [h5.1, h5.2] at h4
    exact ⟨st, true, r.msg, _, _, _, st2, _, hr, fun _ => rfl, h4⟩

/-! ### Shifting the key stream -/

theorem getElem_chunks (f : Nat → List Byte) (hf : ∀ i, (f i).length = 16) (m k : Nat) (h : k < 16 * m) :
    ((List.range m).flatMap f)[k]? = (f (k / 16))[k % 16]? := by
  induction m with
  | zero => omega
  | succ m ih =>
    have hl : ((List.range m).flatMap f).length = 16 * m := by
      rw [List.length_flatMap]; simp [hf, Nat.mul_comm]
    rw [List.range_succ, List.flatMap_append]
    by_cases hk : k < 16 * m
    · rw [List.getElem?_append_left (by omega), ih hk]
    · rw [List.getElem?_append_right (by omega), hl]
      have h1 : k / 16 = m := by omega
      have h2 : k % 16 = k - 16 * m := by omega
      simp [h1, h2]

theorem keyStream_get (E : Block → Block) (j : Block) (n k : Nat) (h : k < n) :
    (keyStream E j n)[k]? = (bytesOf (E (counter (inc32 j) (k / 16))))[k % 16]? := by
  rw [keyStream, List.getElem?_take_of_lt h, getElem_chunks _ (fun _ => by simp) _ _ (by omega)]

/-- The `i`-th block of a byte string, filled up with zeros. -/
def chunk (d : List Byte) (i : Nat) : List Byte := (List.range 16).map fun t => d.getD (16 * i + t) 0

theorem bytesOf_xor_get (a b : Block) (t : Nat) (ht : t < 16) : (bytesOf (a ^^^ b))[t]? = some ((bytesOf a).getD t 0 ^^^ (bytesOf b).getD t 0) := by
  simp [bytesOf, List.getD_eq_getElem?_getD, ht, BitVec.extractLsb'_xor]

/-- The difference of two messages. -/
def diff (x y : List Byte) : List Byte := List.zipWith (· ^^^ ·) x y

theorem crypt_shift (E D : Block → Block) (j : Block) (x y : List Byte) (hl : y.length = x.length)
    (hD : ∀ i < (x.length + 15) / 16, D (counter (inc32 j) i) = blockOf (chunk (diff x y) i)) : crypt (fun p => E p ^^^ D p) j y = crypt E j x := by
  apply List.ext_getElem?
  intro k
  by_cases hk : k < x.length
  · unfold crypt
    rw [List.getElem?_zipWith, List.getElem?_zipWith, keyStream_get _ _ _ _ (by omega), keyStream_get _ _ _ _ hk, hD _ (by omega),
      bytesOf_xor_get _ _ _ (by omega), bytesOf_blockOf _ (by simp [chunk])]
    have h1 : (bytesOf (E (counter (inc32 j) (k / 16))))[k % 16]? = some ((bytesOf (E (counter (inc32 j) (k / 16)))).getD (k % 16) 0) := by
      rw [List.getD_eq_getElem?_getD, List.getElem?_eq_getElem (by rw [length_bytesOf]; omega)]; rfl
    have h2 : (chunk (diff x y) (k / 16)).getD (k % 16) 0 = x[k] ^^^ y[k]'(by omega) := by
      have hm : 16 * (k / 16) + k % 16 = k := Nat.div_add_mod k 16
      rw [chunk, List.getD_eq_getElem?_getD, List.getElem?_map, List.getElem?_range (by omega)]
      simp only [Option.map_some, Option.getD_some, hm, diff, List.getD_eq_getElem?_getD, List.getElem?_zipWith]
      rw [List.getElem?_eq_getElem hk, List.getElem?_eq_getElem (by omega)]
      rfl
    rw [h1, h2, List.getElem?_eq_getElem hk, List.getElem?_eq_getElem (show k < y.length by omega)]
    simp only [Option.some.injEq]
    generalize (bytesOf (E (counter (inc32 j) (k / 16)))).getD (k % 16) 0 = e
    generalize x[k] = u
    generalize y[k]'(by omega) = v
    have : v ^^^ (e ^^^ (u ^^^ v)) = (v ^^^ v) ^^^ (u ^^^ e) := by ac_rfl
    rw [this, BitVec.xor_self, BitVec.zero_xor]
  · rw [List.getElem?_eq_none, List.getElem?_eq_none]
    · simp [crypt]; omega
    · simp [crypt]; omega

/-- The same record with another message. -/
def _root_.Verif.Props.Forgery.Sent.withMsg (r : Sent) (m : List Byte) : Sent := { r with msg := m }

open Classical in
/-- The difference of the key streams that turns the messages of `recs` into those given by `alt`. -/
noncomputable def shift (fiv : List Byte) (recs : List Sent) (alt : Sent → List Byte) (x : Block) : Block :=
  if e : ∃ p : Sent × Nat, p.1 ∈ recs ∧ p.2 < (p.1.msg.length + 15) / 16 ∧ counter (inc32 (j0 (fiv ++ p.1.iv))) p.2 = x then
    blockOf (chunk (diff e.choose.1.msg (alt e.choose.1)) e.choose.2)
  else 0

theorem shift_at {fiv : List Byte} (hf : fiv.length = 4) {recs : List Sent} (hp : Proper recs) (alt : Sent → List Byte) {r : Sent} (hr : r ∈ recs) {i : Nat}
    (hi : i < (r.msg.length + 15) / 16) : shift fiv recs alt (counter (inc32 (j0 (fiv ++ r.iv))) i) = blockOf (chunk (diff r.msg (alt r)) i) := by
  have e : ∃ p : Sent × Nat, p.1 ∈ recs ∧ p.2 < (p.1.msg.length + 15) / 16
      ∧ counter (inc32 (j0 (fiv ++ p.1.iv))) p.2 = counter (inc32 (j0 (fiv ++ r.iv))) i := ⟨(r, i), hr, hi, rfl⟩
  have hs := e.choose_spec
  rw [shift, dif_pos e]
  generalize e.choose = p at hs
  obtain ⟨h1, h2, h3⟩ := hs
  rw [counter_inc, counter_inc] at h3
  have h4 := C29_records _ _ (by rw [List.length_append, hf, hp.iv _ h1]) (by rw [List.length_append, hf, hp.iv r hr]) _ _ h3
  have h5 : p.1 = r := List.inj_on_of_nodup_map hp.once h1 hr (List.append_cancel_left h4)
  rw [h5] at h2 h3 ⊢
  have hm := hp.msg r hr
  have := C29_distinct _ _ _ (by omega) (by omega) h3
  rw [show p.2 = i by omega]

theorem shift_off {fiv : List Byte} (hf : fiv.length = 4) {recs : List Sent} (hp : Proper recs) (alt : Sent → List Byte) {x : Block}
    (hx : x = 0 ∨ ∃ l : List Byte, l.length = 12 ∧ x = j0 l) : shift fiv recs alt x = 0 := by
  rw [shift, dif_neg]
  rintro ⟨p, h1, h2, h3⟩
  have hm := hp.msg _ h1
  have := stream_point (l := fiv ++ p.1.iv) (by rw [List.length_append, hf, hp.iv _ h1]) (i := p.2) (by omega)
  rcases hx with rfl | ⟨l, hl, rfl⟩
  · exact this.1 h3
  · exact this.2 l hl h3

theorem sends_shift {fiv : List Byte} (hf : fiv.length = 4) {recs : List Sent} (hp : Proper recs) (alt : Sent → List Byte)
    (hl : ∀ r ∈ recs, (alt r).length = r.msg.length) (E : Block → Block) :
    Sends E fiv recs ↔ Sends (fun x => E x ^^^ shift fiv recs alt x) fiv (recs.map fun r => r.withMsg (alt r)) := by
  unfold Sends
  rw [List.forall_mem_map]
  refine forall_congr' fun r => imp_congr_right fun hr => ?_
  have h1 := crypt_shift E (shift fiv recs alt) (j0 (fiv ++ r.iv)) r.msg (alt r) (hl r hr) (fun i hi => shift_at hf hp alt hr hi)
  have h2 : ∀ a c, tag (fun x => E x ^^^ shift fiv recs alt x) (j0 (fiv ++ r.iv)) a c = tag E (j0 (fiv ++ r.iv)) a c := by
    intro a c
    have k1 := shift_off hf hp alt (x := 0) (Or.inl rfl)
    have k2 := shift_off hf hp alt (x := j0 (fiv ++ r.iv)) (Or.inr ⟨_, by rw [List.length_append, hf, hp.iv r hr], rfl⟩)
    unfold Spec.GCM.tag
    show tagWith (E 0 ^^^ shift fiv recs alt 0) (E (j0 (fiv ++ r.iv)) ^^^ shift fiv recs alt (j0 (fiv ++ r.iv))) a c = _
    rw [k1, k2]
    show tagWith (E 0 ^^^ 0#128) (E (j0 (fiv ++ r.iv)) ^^^ 0#128) a c = _
    rw [BitVec.xor_zero, BitVec.xor_zero]
    rfl
  unfold Spec.GCM.encrypt
  simp only [Sent.withMsg, h1, h2]

/-- **C64.**  Let `recs` be records with nonces used once.  The number of block ciphers under which `encrypt` produces the ciphertexts and tags seen is the same when the messages are
replaced by any others of the same lengths: the records say nothing about the messages but their lengths. -/
theorem C64_messages_hidden_partial (hash : List Byte → List Byte) (fiv : List Byte) (hf : fiv.length = 4) (s : Bool) (recs : List Sent) (hp : Proper recs)
    (alt : Sent → List Byte) (hl : ∀ r ∈ recs, (alt r).length = r.msg.length) :
    Nat.card { E : Block → Block // ∀ r ∈ recs, Seals hash E fiv s r } = Nat.card { E : Block → Block // ∀ r ∈ recs, Seals hash E fiv s (r.withMsg (alt r)) } := by
  have e1 : ∀ E : Block → Block, (∀ r ∈ recs, Seals hash E fiv s r) ↔ Sends E fiv recs := fun E =>
    forall_congr' fun r => imp_congr_right fun hr => seals_iff hash E fiv hf s r (hp.iv r hr)
  have e2 : ∀ E : Block → Block, (∀ r ∈ recs, Seals hash E fiv s (r.withMsg (alt r))) ↔ Sends E fiv (recs.map fun r => r.withMsg (alt r)) := by
    intro E
    unfold Sends
    rw [List.forall_mem_map]
    exact forall_congr' fun r => imp_congr_right fun hr => seals_iff hash E fiv hf s _ (hp.iv r hr)
  rw [Nat.card_congr (Equiv.subtypeEquivRight e1), Nat.card_congr (Equiv.subtypeEquivRight e2)]
  have inv : ∀ a b : Block, a ^^^ b ^^^ b = a := fun a b => by rw [BitVec.xor_assoc, BitVec.xor_self, BitVec.xor_zero]
  let sh : (Block → Block) ≃ (Block → Block) :=
    ⟨fun E x => E x ^^^ shift fiv recs alt x, fun E x => E x ^^^ shift fiv recs alt x, fun E => funext fun x => inv _ _, fun E => funext fun x => inv _ _⟩
  exact Nat.card_congr (sh.subtypeEquiv fun E => sends_shift hf hp alt hl E)

/-! ### A nonce used twice -/

/-- **C64, fails for a nonce used twice.**  `encrypt` accepts a nonce it has used before, in every state; the difference of the two ciphertexts is the difference of the two messages. -/
theorem C64_reuse_not_refused (hash : List Byte → List Byte) (E : Block → Block) (fiv : List Byte) (hf : fiv.length = 4) (s : Bool) (st : State) (h : Reach hash E fiv s st)
    (msg msg' aad aad' iv : List Byte) (hiv : iv.length = 8) (secret secret' : Bool) (m m' : Nat → Bool) (raw0 raw1 raw0' raw1' : Nat → Block) :
    ∃ st' a b st'' a' b', AEAD.encrypt s st msg msg aad iv secret m raw0 raw1 = .ok (st', a, b)
      ∧ AEAD.encrypt s st' msg' msg' aad' iv secret' m' raw0' raw1' = .ok (st'', a', b')
      ∧ a.ctxt.length = msg.length ∧ a'.ctxt.length = msg'.length
      ∧ ∀ k, k < msg.length → k < msg'.length → a.ctxt.getD k 0 ^^^ a'.ctxt.getD k 0 = msg.getD k 0 ^^^ msg'.getD k 0 := by
  obtain ⟨st', c, t, h1, h2⟩ := C26_encrypt hf h msg msg aad iv hiv secret (fun _ => rfl) m raw0 raw1
  have hr' : Reach hash E fiv s st' := Reach.encrypt h (fun _ => rfl) h1
  obtain ⟨st'', c', t', h3, h4⟩ := C26_encrypt hf hr' msg' msg' aad' iv hiv secret' (fun _ => rfl) m' raw0' raw1'
  refine ⟨st', _, _, st'', _, _, h1, h3, ?_, ?_, ?_⟩
  · have : c = _ := congrArg Prod.fst h2
    simp [this, Spec.GCM.encrypt, crypt]
  · have : c' = _ := congrArg Prod.fst h4
    simp [this, Spec.GCM.encrypt, crypt]
  · intro k hk hk'
    have e1 : c = crypt E (j0 (fiv ++ iv)) msg := congrArg Prod.fst h2
    have e2 : c' = crypt E (j0 (fiv ++ iv)) msg' := congrArg Prod.fst h4
    have get : ∀ x : List Byte, k < x.length → (crypt E (j0 (fiv ++ iv)) x).getD k 0
        = x.getD k 0 ^^^ (bytesOf (E (counter (inc32 (j0 (fiv ++ iv))) (k / 16)))).getD (k % 16) 0 := by
      intro x hx
      rw [List.getD_eq_getElem?_getD, crypt, List.getElem?_zipWith, keyStream_get _ _ _ _ hx, List.getElem?_eq_getElem hx,
        List.getElem?_eq_getElem (by rw [length_bytesOf]; omega)]
      simp [List.getD_eq_getElem?_getD, hx, Nat.mod_lt k (show 0 < 16 by omega)]
    simp only
    rw [e1, e2, get _ hk, get _ hk']
    generalize (bytesOf (E (counter (inc32 (j0 (fiv ++ iv))) (k / 16)))).getD (k % 16) 0 = e
    generalize msg.getD k 0 = u
    generalize msg'.getD k 0 = v
    have : u ^^^ e ^^^ (v ^^^ e) = (e ^^^ e) ^^^ (u ^^^ v) := by ac_rfl
    rw [this, BitVec.xor_self, BitVec.zero_xor]

/-- The tag that the hash key `h` gives another record under the nonce of `r`. -/
def retag (h : Block) (r : Sent) (a c : List Byte) : List Byte :=
  bytesOf (gcmGhash h (blocks (hashInput a c)) ^^^ (gcmGhash h (blocks (hashInput r.aad r.ctxt)) ^^^ blockOf r.tag))

/-- **C64, fails for a nonce used twice.**  From two different records under one nonce there is a set of at most `N` blocks, found without the cipher, that contains the hash key; and for
every additional data and ciphertext the tag computed from the right one of them is accepted by `decrypt`. -/
theorem C64_reuse_forges (hash : List Byte → List Byte) (fiv : List Byte) (hf : fiv.length = 4) (s : Bool) (r r' : Sent) (hiv : r.iv.length = 8) (he : r'.iv = r.iv)
    (ha : r.aad.length < 2 ^ 61) (hc : r.ctxt.length < 2 ^ 61) (ha' : r'.aad.length < 2 ^ 61) (hc' : r'.ctxt.length < 2 ^ 61) (hne : ¬(r.aad = r'.aad ∧ r.ctxt = r'.ctxt)) :
    ∃ H : Block → Prop,
      Nat.card { h // H h } ≤ max ((r.aad.length + 15) / 16 + (r.ctxt.length + 15) / 16 + 1) ((r'.aad.length + 15) / 16 + (r'.ctxt.length + 15) / 16 + 1)
      ∧ ∀ E : Block → Block, Seals hash E fiv s r → Seals hash E fiv s r' →
          H (E 0) ∧ ∀ a c : List Byte, Accepts hash E fiv s ⟨r.iv, a, c, retag (E 0) r a c⟩ := by
  refine ⟨fun h => gcmGhash h (blocks (hashInput r.aad r.ctxt)) ^^^ gcmGhash h (blocks (hashInput r'.aad r'.ctxt)) = blockOf r.tag ^^^ blockOf r'.tag, ?_, ?_⟩
  · exact hash_bound (by omega) (by omega) (by omega) (by omega) hne _
  · intro E h1 h2
    rw [seals_iff hash E fiv hf s r hiv] at h1
    rw [seals_iff hash E fiv hf s r' (by rw [he]; exact hiv), he] at h2
    have s1 : Sends E fiv [r] := by intro x hx; rw [List.mem_singleton.1 hx]; exact h1
    have t1 := tags_of_sends s1 r (by simp)
    have m1 := ((sends_iff (fun x hx => tags_of_sends s1 x hx)).1 s1).2 r (by simp)
    have s2 : Sends E fiv [r'] := by intro x hx; rw [List.mem_singleton.1 hx, he]; exact h2
    have m2 := ((sends_iff (fun x hx => tags_of_sends s2 x hx)).1 s2).2 r' (by simp)
    rw [he] at m2
    rw [m1, maskOf, maskOf] at m2
    refine ⟨?_, fun a c => ?_⟩
    · show gcmGhash (E 0) _ ^^^ gcmGhash (E 0) _ = _
      generalize gcmGhash (E 0) (blocks (hashInput r.aad r.ctxt)) = x at m2 ⊢
      generalize gcmGhash (E 0) (blocks (hashInput r'.aad r'.ctxt)) = y at m2 ⊢
      have e : x ^^^ blockOf r.tag ^^^ y ^^^ blockOf r.tag = y ^^^ blockOf r'.tag ^^^ y ^^^ blockOf r.tag := by rw [m2]
      have c1 : x ^^^ blockOf r.tag ^^^ y ^^^ blockOf r.tag = (blockOf r.tag ^^^ blockOf r.tag) ^^^ (x ^^^ y) := by ac_rfl
      have c2 : y ^^^ blockOf r'.tag ^^^ y ^^^ blockOf r.tag = (y ^^^ y) ^^^ (blockOf r.tag ^^^ blockOf r'.tag) := by ac_rfl
      rw [c1, c2, BitVec.xor_self, BitVec.xor_self, BitVec.zero_xor, BitVec.zero_xor] at e
      exact e
    · rw [accepts_iff hash E fiv hf s _ hiv (by simp [retag])]
      rw [retag, ← maskOf, ← m1]
      rfl

/-! ### The hypotheses are met -/

example : (∀ r ∈ sampleRecs, Seals (fun l => l) (fun x => x) [1, 2, 3, 4] false r) ∧ Proper sampleRecs
    ∧ ∀ r ∈ sampleRecs, ([9, 9, 9] : List Byte).length = r.msg.length := by
  refine ⟨?_, ⟨by simp [sampleRecs], by simp [sampleRecs], by simp [sampleRecs], by simp [sampleRecs]⟩, by simp [sampleRecs]⟩
  intro r hr
  have h8 : r.iv.length = 8 := by
    obtain ⟨n, -, rfl⟩ := List.mem_map.1 hr
    rfl
  rw [seals_iff _ _ _ rfl _ _ h8]
  obtain ⟨n, -, rfl⟩ := List.mem_map.1 hr
  rfl

/-- Two records with one nonce and different additional data. -/
example : ∃ r r' : Sent, Seals (fun l => l) (fun x => x) [1, 2, 3, 4] false r ∧ Seals (fun l => l) (fun x => x) [1, 2, 3, 4] false r' ∧ r.iv.length = 8 ∧ r'.iv = r.iv
    ∧ r.aad.length < 2 ^ 61 ∧ ¬(r.aad = r'.aad ∧ r.ctxt = r'.ctxt) := by
  let iv : List Byte := [0, 0, 0, 0, 0, 0, 0, 1]
  let mk := fun a : List Byte => (⟨iv, a, [5], (Spec.GCM.encrypt (fun x => x) ([1, 2, 3, 4] ++ iv) a [5]).1,
    (Spec.GCM.encrypt (fun x => x) ([1, 2, 3, 4] ++ iv) a [5]).2⟩ : Sent)
  refine ⟨mk [1], mk [2], ?_, ?_, rfl, rfl, by simp [mk], fun h => absurd h.1 (by simp [mk])⟩
  · rw [seals_iff _ _ _ rfl _ _ rfl]
  · rw [seals_iff _ _ _ rfl _ _ rfl]

end Verif.Props.NonceUse
