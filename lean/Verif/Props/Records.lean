import Verif.Lemmas.RecordBits
import Verif.Props.Garbled
import Verif.Props.AEAD

/-!
The records of a garbled connection (C49): the record objects of `protocol/aead.h`, run on the label bits of a connection that is garbled offline and
evaluated online, produce and accept the records of TLS 1.2 with AES-128-GCM, and the shares they store for the later proof are those label bits.
-/

namespace Verif.Props.Records
open Verif.Model Verif.Model.Gate Verif.Model.Records Verif.Model.AEAD Verif.Lemmas
open Verif.Spec Verif.Spec.Encoding
open Verif.Lemmas.Gate (LibSound LibObl Matches empLib_sound empLib_obl)
open Verif.Props.Garbled (exRest exRest_ok exOff exMatch exStart exStart_ok)
open Verif.Props.Garbled (Keys Shares Opens Admissible Starts Buf aes shared backend C47_connection)
open Verif.Props (Good encrypt_eq decrypt_eq construct_eq C26_encrypt)

/-! ### Specification -/

/-- The least significant bit of the generator's (ALICE's) label of a wire. -/
def genBit (E : GC.Env) (n : GC.OnNet) (w : Wire) : Bool := (n.gen.get E (wireNo w)).getLsbD 0
/-- The least significant bit of the evaluator's (BOB's) label of a wire. -/
def evaBit (E : GC.Env) (n : GC.OnNet) (w : Wire) : Bool := (n.eva.get E (wireNo w)).getLsbD 0

def Keys.key (k : Keys) (cl : Bool) : List Byte := if cl then k.ck else k.sk
def Keys.iv (k : Keys) (cl : Bool) : List Byte := if cl then k.civ else k.siv

/-- The supplied buffers fit the call: they have the length announced to the circuit, the two parties agree on what is public, the mask of the
constructor is not zero. -/
def Fits : Call → In → Prop
  | .newAead _ _, .setup r _ _ => r ≠ 0
  | .encrypt _ _ _ n sec, .seal mA mB _ _ _ => mA.length = n ∧ (sec = false → mB = mA)
  | .decrypt _ _ _ n _, .open cA cB tA tB _ _ _ _ _ => cA.length = n ∧ cB = cA ∧ tB = tA ∧ tA.length = 16
  | .clientFinished _ _ _, .none => True
  | .serverFinished _ _ _, .none => True
  | _, _ => False

/-- What the parties must obtain: the ciphertext and tag of AES-128-GCM under the keys of the connection, or its decryption. -/
def Correct (k : Keys) : Call → In → Got → Prop
  | .encrypt _ cl iv _ _, .seal mA _ aad _ _, g =>
      ∃ c t, g = .sealed ⟨c, t⟩ ⟨c, t⟩ ∧ (c, t) = GCM.encrypt (aes (Keys.key k cl)) (Keys.iv k cl ++ iv) aad mA
  | .decrypt _ cl iv _ sec, .open c _ t _ aad _ _ _ _, g =>
      ∃ m ok, g = .opened ⟨some m, ok⟩ ⟨if sec then none else some m, ok⟩
        ∧ (∀ m', GCM.decrypt (aes (Keys.key k cl)) (Keys.iv k cl ++ iv) aad c t = some m' ↔ ok = true ∧ m = m')
  | _, _, g => g = .none

/-- The label bits a party must store for the proof phase, per direction. -/
structure Kept where
  h : Block := 0
  z0 : List Block := []
  z : List (List Byte) := []

/-- A new object starts empty with its share of `H`; a record adds its share of `Z0` and, if secret, of `Z`. -/
def Kept.add (bit : Wire → Bool) (cl : Bool) (q : Kept) : Call × Out → Kept
  | (.newAead _ cl', o) => if cl' = cl then { h := blk (o.h.map bit) } else q
  | (.encrypt _ cl' _ _ sec, o) =>
      if cl' = cl then { q with z0 := q.z0 ++ [blk (o.z0.map bit)], z := if sec then q.z ++ [Integer.toBytes (o.z.map bit)] else q.z } else q
  | (.decrypt _ cl' _ _ sec, o) =>
      if cl' = cl then { q with z0 := q.z0 ++ [blk (o.z0.map bit)], z := if sec then q.z ++ [Integer.toBytes (o.z.map bit)] else q.z } else q
  | _ => q

/-! ### One call -/

theorem construct_inv {E : Block → Block} {fiv : Integer} {s : Bool} {m : Nat → Bool} {r : Block} {raw0 raw1 : Nat → Block} {st : State}
    (h : AEAD.construct E fiv s m r raw0 raw1 = .ok st) : ∃ H, AEAD.aes E (Integer.ofNat 128 0) = .ok H
      ∧ integerToBlock (share m H).1 = .ok st.gcHA ∧ integerToBlock (share m H).2 = .ok st.gcHB
      ∧ st.gcZ0A = [] ∧ st.gcZ0B = [] ∧ st.gcZA = [] ∧ st.gcZB = [] := by
  simp only [AEAD.construct, bind, Except.bind] at h
  split at h
  · cases h
  · rename_i H hH
    refine ⟨H, hH, ?_⟩
    split at h
    · cases h
    · rename_i hA h1
      split at h
      · cases h
      · rename_i hB h2
        split at h
        · cases h
        · cases h
          exact ⟨h1, h2, rfl, rfl, rfl, rfl⟩

/-- What a record leaves in the queues, in terms of the shares computed by `stream`. -/
def Queued (st1 st' : State) (sec : Bool) (s : Integer × Integer) : Prop :=
  st'.gcHA = st1.gcHA ∧ st'.gcHB = st1.gcHB ∧ st'.gcZ0A = st1.gcZ0A ∧ st'.gcZ0B = st1.gcZ0B
    ∧ if sec then ∃ zA zB, integerToChars s.1 = .ok zA ∧ integerToChars s.2 = .ok zB
        ∧ st'.gcZA = st1.gcZA ++ [zA.reverse] ∧ st'.gcZB = st1.gcZB ++ [zB.reverse]
      else st'.gcZA = st1.gcZA ∧ st'.gcZB = st1.gcZB

theorem encrypt_inv {s : Bool} {st st' : State} {mA mB aad iv : List Byte} {sec : Bool} {m : Nat → Bool} {raw0 raw1 : Nat → Block}
    {a b : Sealed} (h : AEAD.encrypt s st mA mB aad iv sec m raw0 raw1 = .ok (st', a, b)) :
    ∃ st1 Z sh z0A z0B, stream st iv mA.length m = .ok (st1, Z, sh, z0A, z0B) ∧ Queued st1 st' sec sh := by
  simp only [AEAD.encrypt, bind, Except.bind] at h
  split at h
  · cases h
  · rename_i x hx
    obtain ⟨st1, Z, sh, z0A, z0B⟩ := x
    refine ⟨st1, Z, sh, z0A, z0B, hx, ?_⟩
    cases sec with
    | false =>
      simp only [if_true] at h
      split at h
      · cases h
      · cases h
        exact ⟨rfl, rfl, rfl, rfl, by simp⟩
    | true =>
      simp only [Bool.true_eq_false, if_false] at h
      cases hA : integerToChars sh.1 with
      | error e => rw [hA] at h; cases h
      | ok zA =>
        cases hB : integerToChars sh.2 with
        | error e => rw [hA, hB] at h; cases h
        | ok zB =>
          rw [hA, hB] at h
          simp only at h
          split at h
          · cases h
          · cases h
            exact ⟨rfl, rfl, rfl, rfl, by simp only [if_true]; exact ⟨zA, zB, hA, hB, rfl, rfl⟩⟩

theorem decrypt_inv {hash : List Byte → List Byte} {s : Bool} {st st' : State} {cA cB tA tB aad iv : List Byte} {sec : Bool} {m : Nat → Bool}
    {raw0 raw1 : Nat → Block} {rA rB : List Byte}
    {a b : Opened} (h : AEAD.decrypt hash s st cA cB tA tB aad iv sec m raw0 raw1 rA rB = .ok (st', a, b)) :
    ∃ st1 Z sh z0A z0B, stream st iv cA.length m = .ok (st1, Z, sh, z0A, z0B) ∧ Queued st1 st' sec sh := by
  simp only [AEAD.decrypt, bind, Except.bind] at h
  split at h
  · cases h
  · rename_i x hx
    obtain ⟨st1, Z, sh, z0A, z0B⟩ := x
    refine ⟨st1, Z, sh, z0A, z0B, hx, ?_⟩
    cases sec with
    | false =>
      simp only [if_true] at h
      split at h
      · cases h
      · cases h
        exact ⟨rfl, rfl, rfl, rfl, by simp⟩
    | true =>
      simp only [Bool.true_eq_false, if_false] at h
      cases hA : integerToChars sh.1 with
      | error e => rw [hA] at h; cases h
      | ok zA =>
        cases hB : integerToChars sh.2 with
        | error e => rw [hA, hB] at h; cases h
        | ok zB =>
          rw [hA, hB] at h
          simp only at h
          split at h
          · cases h
          · cases h
            exact ⟨rfl, rfl, rfl, rfl, by simp only [if_true]; exact ⟨zA, zB, hA, hB, rfl, rfl⟩⟩

/-- From the shares to BOB's label bits. -/
theorem eva_bits {E : GC.Env} {n : GC.OnNet} {x : SInt} {s : List Byte} (h : (shared E n x).reverse = bytesBits s) :
    (x.map (genBit E n)).length = 8 * s.length ∧ x.map (evaBit E n) = Integer.xor (x.map (genBit E n)) (strToInt s) := by
  have e : shared E n x = strToInt s := by
    rw [← List.reverse_reverse (shared E n x), h, ← strToInt_reverse, List.reverse_reverse]
  have hl : x.length = 8 * s.length := by
    have := congrArg List.length e
    simpa [shared] using this
  refine ⟨by simp [hl], ?_⟩
  rw [← e]
  apply List.ext_getElem
  · simp [Integer.xor, shared]
  · intro i h1 h2
    simp only [Integer.xor, shared, genBit, evaBit, List.getElem_zipWith, List.getElem_map]
    generalize (n.gen.get E _).getLsbD 0 = a
    cases a <;> simp

/-- The object of one direction: usable for the cipher and nonce of the connection, and holding the label bits. -/
structure ObjOk (k : Keys) (cl : Bool) (qA qB : Kept) (st : State) : Prop where
  good : Good (aes (Keys.key k cl)) (Keys.iv k cl) st
  hA : st.gcHA = qA.h
  hB : st.gcHB = qB.h
  z0A : st.gcZ0A = qA.z0
  z0B : st.gcZ0B = qB.z0
  zA : st.gcZA = qA.z
  zB : st.gcZB = qB.z

theorem setup_step {E : GC.Env} {n : GC.OnNet} {k : Keys} {cl : Bool} {o : Out} {j : Nat → Nat → Wire}
    (h : Shares E n k (.newAead j cl) o) (s : Bool) (r : Block) (hr : r ≠ 0) (raw0 raw1 : Nat → Block) (qA qB : Kept) :
    ∃ st, AEAD.construct (aes (Keys.key k cl)) (strToInt (Keys.iv k cl)) s (keyMask (genBit E n) o.h) r raw0 raw1 = .ok st
      ∧ ObjOk k cl (qA.add (genBit E n) cl (.newAead j cl, o)) (qB.add (evaBit E n) cl (.newAead j cl, o)) st := by
  obtain ⟨hl, he⟩ := eva_bits h
  rw [length_bytesOf] at hl
  obtain ⟨st, h1, hE, hi, -, a, b, h3, h4, h5⟩ :=
    construct_eq (aes (Keys.key k cl)) (strToInt (Keys.iv k cl)) s (keyMask (genBit E n) o.h) r raw0 raw1
  obtain ⟨H, g1, g2, g3, g4, g5, g6, g7⟩ := construct_inv h1
  have hb : blk (Integer.ofNat 128 0) = (0 : Block) := by rw [blk, val_ofNat]; rfl
  have hH : H = strToInt (GCM.bytesOf (aes (Keys.key k cl) 0)) := by
    rw [AEAD.aes, if_pos (by simp), hb, ofNat_block] at g1
    exact (Except.ok.inj g1).symm
  have hs : share (keyMask (genBit E n) o.h) H = (o.h.map (genBit E n), Integer.xor (o.h.map (genBit E n)) H) :=
    share_mask _ _ (by rw [hl, hH]; simp)
  rw [hs] at g2 g3
  have he' : o.h.map (evaBit E n) = Integer.xor (o.h.map (genBit E n)) H := by rw [hH]; exact he
  rw [← he'] at g3
  rw [integerToBlock_eq _ hl] at g2
  rw [integerToBlock_eq _ (by simpa using hl)] at g3
  have hr' : (⟨r⟩ : F128) ≠ 0 := fun h => hr (congrArg F128.val h)
  have := F128.mul_invBlock ⟨r⟩ hr'
  rw [mul_comm (⟨invBlock r⟩ : F128), this, one_mul] at h5
  refine ⟨st, h1, ⟨hE, hi, a, b, 0, h5, by rw [h3]; simp [powers], by rw [h4]; simp [powers]⟩, ?_, ?_, ?_, ?_, ?_, ?_⟩
  · rw [← Except.ok.inj g2, Kept.add, if_pos rfl]
  · rw [← Except.ok.inj g3, Kept.add, if_pos rfl]
  all_goals simp only [Kept.add, if_true, g4, g5, g6, g7]

theorem stream_def (k : Keys) (cl : Bool) (iv : List Byte) (len : Nat) :
    k.stream cl iv len = GCM.keyStream (aes (Keys.key k cl)) (GCM.j0 (Keys.iv k cl ++ iv)) len := rfl

theorem mask_def (k : Keys) (cl : Bool) (iv : List Byte) :
    k.mask cl iv = aes (Keys.key k cl) (GCM.j0 (Keys.iv k cl ++ iv)) := rfl

theorem recMask_def (bits : Wire → Bool) (len : Nat) (z0 z : SInt) : recMask bits len z0 z
    = fun i => (List.replicate (padBits len) false ++ z.map bits ++ z0.map bits).getD i false := rfl

theorem inj5 {α β γ δ ε φ : Type} {a a' : α} {b b' : β} {c c' : γ} {d d' : δ} {e e' : ε}
    (h : (Except.ok (a, b, c, d, e) : Except φ _) = .ok (a', b', c', d', e')) : a = a' ∧ b = b' ∧ c = c' ∧ d = d' ∧ e = e' := by
  cases h
  exact ⟨rfl, rfl, rfl, rfl, rfl⟩

/-- The queues after a record are the label bits. -/
theorem queued_labels {E : GC.Env} {n : GC.OnNet} {k : Keys} {cl : Bool} {iv : List Byte} (hiv : iv.length = 8) (h4 : (Keys.iv k cl).length = 4)
    {o : Out} {len : Nat}
    (h0 : (shared E n o.z0).reverse = bytesBits (GCM.bytesOf (k.mask cl iv))) (hz : (shared E n o.z).reverse = bytesBits (k.stream cl iv len))
    {qA qB : Kept} {st st' : State} (g : ObjOk k cl qA qB st) {sec : Bool}
    (hq : ∃ st1 Z sh z0A z0B, stream st iv len (recMask (genBit E n) len o.z0 o.z) = .ok (st1, Z, sh, z0A, z0B) ∧ Queued st1 st' sec sh)
    (g' : Good (aes (Keys.key k cl)) (Keys.iv k cl) st') :
    ObjOk k cl { qA with z0 := qA.z0 ++ [blk (o.z0.map (genBit E n))], z := if sec then qA.z ++ [Integer.toBytes (o.z.map (genBit E n))] else qA.z }
      { qB with z0 := qB.z0 ++ [blk (o.z0.map (evaBit E n))], z := if sec then qB.z ++ [Integer.toBytes (o.z.map (evaBit E n))] else qB.z } st' := by
  obtain ⟨l0, e0⟩ := eva_bits h0
  obtain ⟨lz, ez⟩ := eva_bits hz
  rw [length_bytesOf] at l0
  have hlen : (k.stream cl iv len).length = len := length_keyStream _ _ _
  rw [hlen] at lz
  obtain ⟨nonce, hs⟩ := stream_mask st (Keys.iv k cl) iv len (o.z0.map (genBit E n)) (o.z.map (genBit E n)) l0 lz g.good.iv h4 hiv
  have hE : st.E = aes (Keys.key k cl) := g.good.cipher
  rw [hE, ← stream_def, ← mask_def, ← ez, ← e0, ← recMask_def] at hs
  obtain ⟨st1, Z, sh, z0A, z0B, h1, q1, q2, q3, q4, q5⟩ := hq
  rw [hs] at h1
  obtain ⟨rfl, rfl, rfl, rfl, rfl⟩ := inj5 h1
  refine ⟨g', q1.trans g.hA, q2.trans g.hB, ?_, ?_, ?_, ?_⟩
  · rw [q3, ← g.z0A]
  · rw [q4, ← g.z0B]
  · cases sec with
    | false => simp only [Bool.false_eq_true, if_false] at q5 ⊢; exact q5.1.trans g.zA
    | true =>
      simp only [if_true] at q5 ⊢
      obtain ⟨zA, zB, c1, c2, c3, c4⟩ := q5
      obtain ⟨s, s1, s2⟩ := exists_strToInt (o.z.map (genBit E n)) len lz
      rw [s2, integerToChars_strToInt] at c1
      rw [c3, s2, strToInt, toBytes_ofBytes, ← Except.ok.inj c1, ← g.zA]
  · cases sec with
    | false => simp only [Bool.false_eq_true, if_false] at q5 ⊢; exact q5.2.trans g.zB
    | true =>
      simp only [if_true] at q5 ⊢
      obtain ⟨zA, zB, c1, c2, c3, c4⟩ := q5
      obtain ⟨s, s1, s2⟩ := exists_strToInt (o.z.map (evaBit E n)) len (by simpa using lz)
      rw [s2, integerToChars_strToInt] at c2
      rw [c4, s2, strToInt, toBytes_ofBytes, ← Except.ok.inj c2, ← g.zB]

/-! ### All calls -/

/-- The objects of both directions; `c`, `s` say which exist for certain. -/
structure Inv (E : GC.Env) (n : GC.OnNet) (k : Keys) (c s : Bool) (q : Bool → List (Call × Out)) (objs : Objs) : Prop where
  ex : ∀ cl, (if cl then c else s) = true → ∃ st, objs.get cl = .ok st
  ok : ∀ cl st, objs.get cl = .ok st → ObjOk k cl ((q cl).foldl (Kept.add (genBit E n) cl) {}) ((q cl).foldl (Kept.add (evaBit E n) cl) {}) st

theorem get_set (objs : Objs) (cl cl' : Bool) (st : State) : (objs.set cl st).get cl' = if cl' = cl then .ok st else objs.get cl' := by
  cases cl <;> cases cl' <;> simp [Objs.set, Objs.get]

/-- A call that is not about the direction leaves what is kept for it. -/
theorem add_other (bit : Wire → Bool) {cl cl' : Bool} (h : cl' ≠ cl) (q : Kept) (o : Out) :
    (∀ j, q.add bit cl (.newAead j cl', o) = q) ∧ (∀ j iv len sec, q.add bit cl (.encrypt j cl' iv len sec, o) = q)
      ∧ ∀ j iv len sec, q.add bit cl (.decrypt j cl' iv len sec, o) = q := by
  refine ⟨fun _ => ?_, fun _ _ _ _ => ?_, fun _ _ _ _ => ?_⟩ <;> simp only [Kept.add, if_neg h]

/-- The surroundings of the records of a connection with keys `k`. -/
def ctx (E : GC.Env) (n : GC.OnNet) (k : Keys) (sends : Bool → Bool) (hash : List Byte → List Byte) : Ctx :=
  { cipher := fun cl => aes (Keys.key k cl), fixedIv := fun cl => strToInt (Keys.iv k cl), aliceSends := sends, hash := hash, bits := genBit E n }

theorem inv_step {E : GC.Env} {n : GC.OnNet} {k : Keys} {c s c' s' : Bool} {q : Bool → List (Call × Out)} {objs : Objs} (h : Inv E n k c s q objs)
    {cl : Bool} {op : Call} {o : Out} {st : State}
    (hst : ObjOk k cl (((q cl).foldl (Kept.add (genBit E n) cl) {}).add (genBit E n) cl (op, o))
      (((q cl).foldl (Kept.add (evaBit E n) cl) {}).add (evaBit E n) cl (op, o)) st)
    (ho : ∀ cl', cl' ≠ cl → ∀ bit q, Kept.add bit cl' q (op, o) = q)
    (hf : ∀ cl', (if cl' then c' else s') = true → cl' = cl ∨ (if cl' then c else s) = true) :
    Inv E n k c' s' (fun cl => q cl ++ [(op, o)]) (objs.set cl st) := by
  constructor
  · intro cl' h'
    rw [get_set]
    by_cases e : cl' = cl
    · exact ⟨st, by rw [if_pos e]⟩
    · rw [if_neg e]
      exact h.ex cl' ((hf cl' h').resolve_left e)
  · intro cl' st' h'
    rw [get_set] at h'
    simp only [List.foldl_append, List.foldl_cons, List.foldl_nil]
    by_cases e : cl' = cl
    · subst e
      rw [if_pos rfl] at h'
      cases h'
      exact hst
    · rw [if_neg e] at h'
      rw [ho cl' e, ho cl' e]
      exact h.ok cl' st' h'

theorem inv_skip {E : GC.Env} {n : GC.OnNet} {k : Keys} {c s : Bool} {q : Bool → List (Call × Out)} {objs : Objs} (h : Inv E n k c s q objs)
    {op : Call} {o : Out} (ho : ∀ cl' bit q, Kept.add bit cl' q (op, o) = q) :
    Inv E n k c s (fun cl => q cl ++ [(op, o)]) objs := by
  constructor
  · exact h.ex
  · intro cl' st' h'
    simp only [List.foldl_append, List.foldl_cons, List.foldl_nil]
    rw [ho, ho]
    exact h.ok cl' st' h'

theorem records_run {E : GC.Env} {n : GC.OnNet} {k : Keys} (h4 : ∀ cl, (Keys.iv k cl).length = 4) (sends : Bool → Bool)
    (hash : List Byte → List Byte) : ∀ (items : List ((Call × In) × Out)) (c s : Bool) (q : Bool → List (Call × Out)) (objs : Objs),
      Admissible c s (items.map fun x => x.1.1) → (∀ x ∈ items, Fits x.1.1 x.1.2 ∧ Shares E n k x.1.1 x.2) → Inv E n k c s q objs →
      ∃ gs objs' c' s', run (ctx E n k sends hash) objs items = .ok (gs, objs')
        ∧ List.Forall₂ (fun x g => Correct k x.1.1 x.1.2 g) items gs
        ∧ Inv E n k c' s' (fun cl => q cl ++ items.map fun x => (x.1.1, x.2)) objs' := by
  intro items
  induction items with
  | nil => intro c s q objs _ _ h; exact ⟨[], objs, c, s, rfl, .nil, by simpa using h⟩
  | cons x items ih =>
    obtain ⟨⟨op, i⟩, o⟩ := x
    intro c s q objs ha hf h
    obtain ⟨hf0, hs0⟩ := hf _ (List.mem_cons_self ..)
    have hf' : ∀ x ∈ items, Fits x.1.1 x.1.2 ∧ Shares E n k x.1.1 x.2 := fun x hx => hf x (List.mem_cons_of_mem _ hx)
    simp only [List.map_cons] at ha hf0 hs0
    suffices hstep : ∃ g objs1 c1 s1, step (ctx E n k sends hash) objs op o i = .ok (g, objs1) ∧ Correct k op i g
        ∧ Inv E n k c1 s1 (fun cl => q cl ++ [(op, o)]) objs1 ∧ Admissible c1 s1 (items.map fun x => x.1.1) by
      obtain ⟨g, objs1, c1, s1, e1, hc, hi, ha1⟩ := hstep
      obtain ⟨gs, objs', c', s', e2, hcs, hi'⟩ := ih c1 s1 _ objs1 ha1 hf' hi
      refine ⟨g :: gs, objs', c', s', ?_, .cons hc hcs, ?_⟩
      · simp only [run, e1, e2, bind, Except.bind]
      · simpa only [List.append_assoc, List.singleton_append, List.map_cons] using hi'
    cases op with
    | masterKey g a b rc rs => exact ha.elim
    | extendedMasterKey g a b sh => exact ha.elim
    | expansionKeys g rc rs => exact ha.elim
    | clientFinished g l t =>
      cases i <;> simp only [Fits] at hf0
      exact ⟨.none, objs, c, s, rfl, rfl, inv_skip h fun _ _ _ => rfl, ha.2.2⟩
    | serverFinished g l t =>
      cases i <;> simp only [Fits] at hf0
      exact ⟨.none, objs, c, s, rfl, rfl, inv_skip h fun _ _ _ => rfl, ha.2.2⟩
    | newAead j cl =>
      cases i <;> simp only [Fits] at hf0
      rename_i r raw0 raw1
      obtain ⟨st, e, hst⟩ := setup_step hs0 (sends cl) r hf0 raw0 raw1 ((q cl).foldl (Kept.add (genBit E n) cl) {})
        ((q cl).foldl (Kept.add (evaBit E n) cl) {})
      refine ⟨.none, objs.set cl st, c || cl, s || !cl, ?_, rfl, inv_step h hst (fun cl' hc bit q => (add_other bit hc.symm q o).1 j) ?_, ha⟩
      · simp only [step, ctx, e, bind, Except.bind]
      · intro cl' h'
        cases cl <;> cases cl' <;> simp at h' ⊢ <;> exact h'
    | encrypt j cl iv len sec =>
      obtain ⟨h1, hi, ha⟩ := ha
      cases i <;> simp only [Fits] at hf0
      rename_i mA mB aad raw0 raw1
      obtain ⟨hlen, hB⟩ := hf0
      obtain ⟨st, hget⟩ := h.ex cl h1
      have hok := h.ok cl st hget
      obtain ⟨st', e, hg, -⟩ := encrypt_eq _ _ (h4 cl) (sends cl) st hok.good mA mB aad iv hi sec (recMask (genBit E n) len o.z0 o.z) raw0 raw1
        (fun e => by rw [hB e])
      have hst := queued_labels hi (h4 cl) hs0.1 hs0.2 hok (by have := encrypt_inv e; rwa [hlen] at this) hg
      obtain ⟨ct, tg, e', hct⟩ : ∃ ct tg, AEAD.encrypt (sends cl) st mA mB aad iv sec (recMask (genBit E n) len o.z0 o.z) raw0 raw1
          = .ok (st', ⟨ct, tg⟩, ⟨ct, tg⟩) ∧ (ct, tg) = GCM.encrypt (aes (Keys.key k cl)) (Keys.iv k cl ++ iv) aad mA := by
        refine ⟨_, _, ?_, rfl⟩
        rw [e]
        cases sec with
        | true => rfl
        | false => rw [hB rfl]; rfl
      refine ⟨.sealed ⟨ct, tg⟩ ⟨ct, tg⟩, objs.set cl st', c, s, ?_, ⟨ct, tg, rfl, hct⟩, inv_step h (op := .encrypt j cl iv len sec) ?_
        (fun cl' hc bit q => (add_other bit hc.symm q o).2.1 j iv len sec) (fun _ h' => .inr h'), ha⟩
      · simp only [step, ctx, hget, e', bind, Except.bind]
      · simp only [Kept.add, if_true]
        exact hst
    | decrypt j cl iv len sec =>
      obtain ⟨h1, hi, ha⟩ := ha
      cases i <;> simp only [Fits] at hf0
      rename_i cA cB tA tB aad raw0 raw1 rA rB
      obtain ⟨hlen, rfl, rfl, ht⟩ := hf0
      obtain ⟨st, hget⟩ := h.ex cl h1
      have hok := h.ok cl st hget
      obtain ⟨st', e, hg, -⟩ := decrypt_eq hash _ _ (h4 cl) (sends cl) st hok.good cB cB tB tB aad iv hi sec (recMask (genBit E n) len o.z0 o.z)
        raw0 raw1 rA rB (fun _ => rfl)
      have hst := queued_labels hi (h4 cl) hs0.1 hs0.2 hok (by have := decrypt_inv e; rwa [hlen] at this) hg
      obtain ⟨m, ok, e', hm⟩ : ∃ m ok, AEAD.decrypt hash (sends cl) st cB cB tB tB aad iv sec (recMask (genBit E n) len o.z0 o.z) raw0 raw1 rA rB
          = .ok (st', ⟨some m, ok⟩, ⟨if sec then none else some m, ok⟩)
          ∧ ∀ m', GCM.decrypt (aes (Keys.key k cl)) (Keys.iv k cl ++ iv) aad cB tB = some m' ↔ ok = true ∧ m = m' := by
        refine ⟨_, _, e, ?_⟩
        intro m'
        rw [List.take_of_length_le (by omega), beq_iff_eq, GCM.decrypt]
        split
        · rename_i ht'
          simp [ht']
        · rename_i ht'
          simp [ht']
      refine ⟨.opened ⟨some m, ok⟩ ⟨if sec then none else some m, ok⟩, objs.set cl st', c, s, ?_, ⟨m, ok, rfl, hm⟩,
        inv_step h (op := .decrypt j cl iv len sec) ?_
        (fun cl' hc bit q => (add_other bit hc.symm q o).2.2 j iv len sec) (fun _ h' => .inr h'), ha⟩
      · simp only [step, ctx, hget, e', bind, Except.bind]
      · simp only [Kept.add, if_true]
        exact hst

/-! ### The theorem -/

/-- **C49.**  For every connection as in C47, and for every sequence of record objects and records with any messages, additional data, nonces, received
ciphertexts and tags, masks and correlations, whoever sends in the oblivious transfers: run the record objects on the label bits of the
evaluation.  All calls succeed.  `encrypt` gives both parties the ciphertext and the tag of AES-128-GCM under the keys of the TLS key block, with nonce
`fixed iv || explicit iv`.  `decrypt` gives ALICE (and BOB unless the record is secret) the plaintext, and both accept exactly if AES-128-GCM accepts.
Afterwards each object of each party stores, for the proof phase, the label bits of that party. -/
theorem C49_session {L : Lib} (hL : LibSound L) (hO : LibObl L) (q : Nat) (rounds : Bool) (hq : bnNumBytes q < 2 ^ 59) (master : List Bool)
    (start : Call) (h : Starts q master start) (g : Nat → List Byte) (hg : Buf g) (rc rs : List Byte) (hl : rc.length + rs.length < 2 ^ 57)
    (rest : List (Call × In)) (ha : Admissible false false (rest.map Prod.fst)) (hn : rest.length < 2 ^ 60) (hfit : ∀ x ∈ rest, Fits x.1 x.2)
    (ops' : List OffCall) (hm : List.Forall₂ (Matches rounds) (start :: .expansionKeys g rc rs :: rest.map Prod.fst) ops') (O' : Oracle)
    (E : GC.Env) (d : Block) (sends : Bool → Bool) (hash : List Byte → List Byte) :
    ∃ y t' f, ConnOff.run L { hs := { q := q, roundsOpt := rounds } } ops' O' {} = .ok (y, t')
      ∧ GC.OffNet.run E { gen := { delta := GC.setDelta d } } t'.program = .ok f
      ∧ ∃ k : Keys, k.Of master (bytesBits rc) (bytesBits rs)
      ∧ ∃ outs c t, (∀ alice, ConnG.run L { hs := { q := q, roundsOpt := rounds } } (start :: .expansionKeys g rc rs :: rest.map Prod.fst)
          (backend E f alice) {} = .ok (({} :: {} :: outs, c), t))
      ∧ ∃ os n', (GC.syncOnline f).run E t.program = .ok (os, n')
      ∧ ∃ gs objs, Records.run (ctx E n' k sends hash) {} (rest.zip outs) = .ok (gs, objs)
        ∧ List.Forall₂ (fun x g => Correct k x.1 x.2 g) rest gs
        ∧ ∀ cl st, objs.get cl = .ok st →
            ObjOk k cl (((rest.map Prod.fst).zip outs).foldl (Kept.add (genBit E n') cl) {})
              (((rest.map Prod.fst).zip outs).foldl (Kept.add (evaBit E n') cl) {}) st := by
  obtain ⟨y, t', f, h1, h2, k, hk, outs, c, t, h3, _, os, n', h5, _, _, _, h6⟩ :=
    C47_connection hL hO q rounds hq master start h g hg rc rs hl _ ha (by simpa using hn) ops' hm O' E d
  refine ⟨y, t', f, h1, h2, k, hk, outs, c, t, h3, os, n', h5, ?_⟩
  have hlen : rest.length = outs.length := by simpa using h6.length_eq
  have h4 : ∀ cl, (Keys.iv k cl).length = 4 := by
    intro cl
    have a1 := hk.2.2.2.1
    have a2 := hk.2.2.2.2
    simp only [length_bytesBits] at a1 a2
    cases cl
    · show k.siv.length = 4; omega
    · show k.civ.length = 4; omega
  have hmap : (rest.zip outs).map (fun x => x.1.1) = rest.map Prod.fst := by
    have : (rest.zip outs).map Prod.fst = rest := List.map_fst_zip (by omega)
    conv_rhs => rw [← this, List.map_map]
    rfl
  have hmap2 : (rest.zip outs).map (fun x => (x.1.1, x.2)) = (rest.map Prod.fst).zip outs := by
    rw [List.zip_map_left]; rfl
  obtain ⟨gs, objs, c', s', r1, r2, r3⟩ := records_run (E := E) (n := n') h4 sends hash (rest.zip outs) false false (fun _ => []) {}
    (by rw [hmap]; exact ha) (by
      intro x hx
      obtain ⟨⟨op, i⟩, o⟩ := x
      refine ⟨hfit _ (List.of_mem_zip hx).1, ?_⟩
      have hz : (op, o) ∈ (rest.map Prod.fst).zip outs := by
        rw [← hmap2]
        exact List.mem_map.2 ⟨_, hx, rfl⟩
      exact (List.forall₂_iff_zip.1 h6).2 hz)
    ⟨fun cl h => by cases cl <;> simp at h, fun cl st h => by cases cl <;> simp [Objs.get] at h⟩
  refine ⟨gs, objs, r1, ?_, ?_⟩
  · have e : (rest.zip outs).map Prod.fst = rest := List.map_fst_zip (by omega)
    rw [← e, List.forall₂_map_left_iff]
    exact r2
  · intro cl st hst
    have := r3.ok cl st hst
    rw [hmap2] at this
    simpa using this

/-! ### A concrete connection -/

/-- Data for the calls of `exRest`: a message of 20 bytes sent in the clear, a secret ciphertext of 33 bytes received. -/
def exIn : List In :=
  [.setup 1 (fun _ => 5) (fun _ => 6), .none, .setup 2 (fun i => BitVec.ofNat 128 i) (fun _ => 6), .none,
   .seal (List.replicate 20 7) (List.replicate 20 7) [1, 2, 3] (fun _ => 9) (fun i => BitVec.ofNat 128 (i * i)),
   .open (List.replicate 33 8) (List.replicate 33 8) (List.replicate 16 4) (List.replicate 16 4) [] (fun _ => 1) (fun _ => 2) [3] [4]]

theorem ex_fst : (exRest.zip exIn).map Prod.fst = exRest := rfl

theorem exFits : ∀ x ∈ exRest.zip exIn, Fits x.1 x.2 := by
  intro x hx
  simp only [exRest, exIn, List.zip_cons_cons, List.mem_cons, List.zip_nil_right, List.not_mem_nil, or_false] at hx
  rcases hx with rfl | rfl | rfl | rfl | rfl | rfl
  · show (1 : Block) ≠ 0; decide
  · trivial
  · show (2 : Block) ≠ 0; decide
  · trivial
  · exact ⟨rfl, fun _ => rfl⟩
  · exact ⟨rfl, rfl, rfl, rfl⟩

example (rounds : Bool) (O' : Oracle) (E : GC.Env) (d : Block) (sends : Bool → Bool) (hash : List Byte → List Byte) :=
  C49_session empLib_sound empLib_obl 251 rounds (by decide +kernel) _ exStart
  exStart_ok (fun _ => List.replicate 64 8) (fun _ => by simp) (List.replicate 32 4) (List.replicate 32 5) (by simp) (exRest.zip exIn) exRest_ok
  (by decide) exFits exOff (exMatch rounds) O' E d sends hash

end Verif.Props.Records
