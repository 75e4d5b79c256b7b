import Verif.Props.GarblerKey
import Verif.Lemmas.Away
import Verif.Lemmas.KeyBack
import Verif.Lemmas.GateLib

/-! C82, second part: the tables of the last S-boxes of a run of the cipher circuit. -/

namespace Verif.Props.GarblerKeyAES
open Verif.Model Verif.Model.Integer Verif.Model.Gate Verif.Model.AESCircuit Verif.Model.GC Verif.Lemmas.AESCert Verif.Lemmas.Bristol Verif.Lemmas.AESCircuit Verif.Lemmas.AESProbe Verif.Lemmas.AESDrift
open Verif.Lemmas.Gate (wv Valid IR BR inR bv bv_eq Ext plain agree_plain ref_inc ref_setNonce empLib_sound)
open Verif.Spec
open Verif.Spec.Encoding
open Verif.Spec.Circuit (Op next onWire drift Calm Party Away)
open Verif.Lemmas (setNonce_eq inc_eq ofNat_block blk_inj blk_ofNat blk_strToInt)
open Verif.Props Verif.Props.GarblerKey
open Verif.Props.GarblerProbe (answer)
open Verif.Props.EvaluatorView (blindA theirs)
open Verif.Props.EvaluatorViewOnline (start off_shape shape_refl)

theorem map_range {α : Type} (f : Nat → α) (l : List Nat) {n : Nat} (h : l.length = n) : l.map f = (List.range n).map fun i => f (l.getD i 0) := by
  apply List.ext_getElem
  · rw [List.length_map, List.length_map, List.length_range, h]
  · intro i h1 h2
    rw [List.length_map] at h1
    rw [List.getElem_map, List.getElem_map, List.getElem_range, List.getD_eq_getElem _ _ h1]

theorem get_left (l t : List Bool) (i : Nat) (h : i < l.length) : Circuit.get (l ++ t) i = Circuit.get l i := by
  unfold Circuit.get
  rw [List.getD_append _ _ _ _ h]

/-- A session with the operations `ops`, for which the offline phase (with inputs `ops₀`) has been run by a garbler that adds `P k` to the rows of gate `k`: the evaluator gets through, all
it opens is right and the same as with the garbler of the code, and among its messages are the bits `bs` and a digest `dig` with `G`, where `G` may refer to the labels of the garbler. -/
def Reads (E : Env) (d : Block) (P : Nat → Block × Block) (ops ops₀ : List Op) (bs : List Bool) (G : OnGen → Nat → Prop) : Prop :=
  ∃ (f : OffNet) (os : List (Party × List Bool × List Bool)) (n : OnNet) (l : List Msg) (e' : OnEva) (m₁ m₂ : List Msg) (dig : Nat),
    (start d).run E ops₀ = .ok f
    ∧ (start d).runAdd E P ops₀ = .ok (Verif.Lemmas.Drift.added P f)
    ∧ (syncOnline f).run E ops = .ok (os, n)
    ∧ (syncOnline f).recordEva E ops = .ok (l, n)
    ∧ List.Forall₂ RevealOk os (Circuit.opened [] ops)
    ∧ (syncOnline (Verif.Lemmas.Drift.added P f)).eva.run E (ops.map blindA) l = .ok (theirs os, e', [], m₁ ++ [.bits bs, .dig dig] ++ m₂)
    ∧ G n.gen dig

theorem Reads.mono {E : Env} {d : Block} {P : Nat → Block × Block} {ops ops₀ : List Op} {bs : List Bool} {G H : OnGen → Nat → Prop} (h : Reads E d P ops ops₀ bs G)
    (hg : ∀ g dig, G g dig → H g dig) : Reads E d P ops ops₀ bs H := by
  obtain ⟨f, os, n, l, e', m₁, m₂, dig, h1, h2, h3, h4, h5, h6, h7⟩ := h
  exact ⟨f, os, n, l, e', m₁, m₂, dig, h1, h2, h3, h4, h5, h6, hg _ _ h7⟩

/-- **C82, the state of the cipher.**  A session runs the cipher circuit on a key schedule `ws` and a block `msg`, both secret, and opens the result to both parties, at once or later.
The garbler adds blocks to rows of tables in the S-boxes `S` of the last round.  If nothing of this gets to a gate later, all that is opened in the session is right, and the digest that
the evaluator sends with the opened block is the one the garbler computes for a guess `x` of the state before the last round if and only if `x` is right in the bytes `S`. -/
theorem C82_state (E : Env) (hinj : Function.Injective E.hash) (d : Block) (S : Nat → Bool) (s₀ : Sess) (hs₀ : Valid s₀) (k y : SInt) (ks : List AES.Word) (hks : IsSchedule ks)
    (msg : List Byte) (hm : msg.length = 16) (hk : IR s₀ k (keyLayout ks)) (hy : IR s₀ y (strToInt msg)) (tail rest : List Op)
    (hq : ∀ c, Calm (keyRows (firstNo s₀) S) c (0, []) ((after s₀ k y).program ++ tail ++ [Op.reveal .pub ((outWires s₀.n).map wireNo)] ++ rest))
    (ops₀ : List Op) (hs : List.Forall₂ SameShape ops₀ ((after s₀ k y).program ++ tail ++ [Op.reveal .pub ((outWires s₀.n).map wireNo)] ++ rest)) :
    Reads E d (keyRows (firstNo s₀) S) ((after s₀ k y).program ++ tail ++ [Op.reveal .pub ((outWires s₀.n).map wireNo)] ++ rest) ops₀ (strToInt (AES.cipher ks msg)) fun g dig =>
      ∀ x, dig = E.hash (guess E g (setDelta d) S (s₀.n + 2) ((outWires s₀.n).map wireNo) (strToInt (AES.cipher ks msg)) x)
        ↔ ∀ q < 16, S q = true → x.getD q 0 = (AES.rounds ks msg 9).getD q 0 := by
  obtain ⟨hin, v, hv, hvl, hva, hvo⟩ := after_values hs₀ hks hm hk hy
  have hlen : (wv s₀).length = s₀.n + 2 := hs₀.1
  have e30 : aesEncKs.numWire - aesEncKs.n3 = 30467 := by decide
  have hprod : ∀ o < 128, fieldT encProd (30467 + o) < aesEncKs.numGate := by
    intro o ho
    have := enc_wired.2 o ho
    rw [e30] at this
    exact (written_prod (Nat.le_refl _) this (by omega)).1
  have hargs : ∀ p < 128, lastArgs.getD p 0 < aesEncKs.numGate := by
    intro p hp
    obtain ⟨l1, l2, l3, l4, l5⟩ := last_gate p hp
    have := (written_prod (Nat.le_of_lt l1) (enc_wired.1 _ l1).2 l4).1
    rw [l5] at this
    omega
  obtain ⟨t1, ht1⟩ := foldl_next tail (wv (after s₀ k y))
  have hpre : ((after s₀ k y).program ++ tail).foldl next [] = wv s₀ ++ v ++ t1 := by
    rw [List.foldl_append, ← hv]; exact ht1
  have hval : ∀ j < aesEncKs.numGate, ∀ t, Circuit.get (wv s₀ ++ v ++ t) (s₀.n + 2 + j) = v.getD j false := by
    intro j hj t
    rw [get_left _ _ _ (by rw [List.length_append, hlen, hvl]; omega)]
    unfold Circuit.get
    rw [List.getD_append_right _ _ _ _ (by omega), hlen]
    exact congrArg (fun z => v.getD z false) (by omega)
  obtain ⟨f, os, n, l, e', m₁, m₂, h1, h2, h3, h4, h5, h6⟩ := C82_digest E d (keyRows (firstNo s₀) S) (rows_even _ _) ((after s₀ k y).program ++ tail) rest
    ((outWires s₀.n).map wireNo) (by
      intro x hx
      obtain ⟨i, hi, rfl⟩ := List.mem_iff_getElem.1 hx
      have hi' : i < 128 := by rw [outs_length] at hi; exact hi
      rw [← List.getD_eq_getElem _ 0 hi, outs_getD _ _ hi', hpre, List.length_append, List.length_append, hlen, hvl]
      have := hprod (127 - i) (by omega)
      omega) hq ops₀ hs
  have hbits : ((outWires s₀.n).map wireNo).map (Circuit.get (((after s₀ k y).program ++ tail).foldl next [])) = strToInt (AES.cipher ks msg) := by
    rw [hpre, ← List.reverse_inj, Verif.Lemmas.strToInt_reverse, ← hvo]
    unfold outWires
    rw [← List.map_reverse, ← List.map_reverse, List.reverse_reverse, List.map_map, List.map_map]
    refine List.map_congr_left fun o ho => ?_
    have ho := List.mem_range.1 ho
    rw [← hval _ (hprod o ho) t1]
    exact congrArg (Circuit.get (wv s₀ ++ v ++ t1)) (show s₀.n + fieldT encProd (30467 + o) + 2 = _ by omega)
  set c : Nat → Bool := fun x => Circuit.get (((after s₀ k y).program ++ tail ++ [Op.reveal .pub ((outWires s₀.n).map wireNo)] ++ rest).foldl next []) x ^^ lsb (n.gen.get E x) with hc
  obtain ⟨t2, ht2⟩ := foldl_next rest (([Op.reveal .pub ((outWires s₀.n).map wireNo)]).foldl next (wv s₀ ++ v ++ t1))
  have hall : ((after s₀ k y).program ++ tail ++ [Op.reveal .pub ((outWires s₀.n).map wireNo)] ++ rest).foldl next [] = wv s₀ ++ v ++ (t1 ++ t2) := by
    rw [List.foldl_append, List.foldl_append, hpre, ht2]
    simp only [List.foldl_cons, List.foldl_nil, Circuit.next, Circuit.newWire, Option.toList_none, List.append_nil, List.append_assoc]
  have hlab : (((outWires s₀.n).map wireNo).map fun x => n.gen.get E x ^^^ sel (Circuit.get (((after s₀ k y).program ++ tail).foldl next []) x) (setDelta d)
        ^^^ onWire ((((after s₀ k y).program ++ tail)).foldl (drift (keyRows (firstNo s₀) S) c) (0, [])).2 x)
      = guess E n.gen (setDelta d) S (s₀.n + 2) ((outWires s₀.n).map wireNo) (strToInt (AES.cipher ks msg)) (AES.rounds ks msg 9) := by
    rw [map_range _ _ (outs_length s₀.n)]
    unfold guess
    refine List.map_congr_left fun i hi => ?_
    have hi := List.mem_range.1 hi
    rw [← hbits]
    refine congrArg₂ (· ^^^ ·) (congrArg (fun b => _ ^^^ sel b (setDelta d)) ?_) ?_
    · rw [List.getD_eq_getElem _ false (by rw [List.length_map, outs_length]; exact hi), List.getElem_map, List.getD_eq_getElem _ _ (by rw [outs_length]; exact hi)]
    · obtain ⟨u, hu⟩ := drift_more (keyRows (firstNo s₀) S) c tail ((after s₀ k y).program.foldl (drift (keyRows (firstNo s₀) S) c) (0, []))
      have hp := hprod (127 - i) (by omega)
      rw [List.foldl_append, hu, (drift_after hs₀ hin S c).1, outs_getD _ _ hi, onWire_left _ _ _ (by simp only [List.length_append, List.length_replicate, List.length_map, List.length_range]; omega),
        out_drift S c _ (by omega)]
      unfold onOutput
      have hr : rowFrom ((127 - i) / 8) < 16 := by unfold rowFrom; omega
      have hcar := (carry_nodup ((127 - i) % 8) (by omega)).2
      by_cases hS : S (rowFrom ((127 - i) / 8)) = true
      · simp only
        rw [if_pos hS]
        refine List.foldl_ext _ _ _ fun b t ht => ?_
        have ht8 := hcar t ht
        refine congrArg (b ^^^ ·) ?_
        unfold Verif.Lemmas.AESDrift.added
        rw [show (8 * rowFrom ((127 - i) / 8) + t) / 8 = rowFrom ((127 - i) / 8) by omega, show (8 * rowFrom ((127 - i) / 8) + t) % 8 = t by omega, hS, Bool.true_and, hc]
        simp only
        rw [hall, hval _ (hargs _ (by omega)), hva _ (by omega), show (8 * rowFrom ((127 - i) / 8) + t) / 8 = rowFrom ((127 - i) / 8) by omega,
          show (8 * rowFrom ((127 - i) / 8) + t) % 8 = t by omega]
      · simp only
        rw [if_neg hS]
        have : ∀ (l : List Nat) (b : Block), (∀ t ∈ l, t < 8) → l.foldl (fun b t => b ^^^ Verif.Lemmas.AESDrift.added S c (s₀.n + 2) (8 * rowFrom ((127 - i) / 8) + t)) b = b := by
          intro l
          induction l with
          | nil => intro b _; rfl
          | cons t l ih =>
            intro b hl
            have ht8 := hl t (by simp)
            rw [List.foldl_cons, ih _ fun x hx => hl x (List.mem_cons_of_mem _ hx)]
            unfold Verif.Lemmas.AESDrift.added
            rw [show (8 * rowFrom ((127 - i) / 8) + t) / 8 = rowFrom ((127 - i) / 8) by omega]
            have : S (rowFrom ((127 - i) / 8)) = false := by simpa using hS
            rw [this, Bool.false_and]
            exact BitVec.xor_zero
        exact this _ _ hcar
  refine ⟨f, os, n, l, e', m₁, m₂, E.hash (guess E n.gen (setDelta d) S (s₀.n + 2) ((outWires s₀.n).map wireNo) (strToInt (AES.cipher ks msg)) (AES.rounds ks msg 9)), h1, h2, h3, h4, h5, ?_, ?_⟩
  · rw [h6, hlab, hbits]; rfl
  · intro x
    rw [hinj.eq_iff, guess_iff]
    constructor <;> intro h q hq hS <;> exact (h q hq hS).symm

/-- **C82, a session that goes on.**  It is enough that later operations do not compute with the wires of the circuit: the opened block is only opened. -/
theorem C82_away (E : Env) (hinj : Function.Injective E.hash) (d : Block) (S : Nat → Bool) (s₀ : Sess) (hs₀ : Valid s₀) (k y : SInt) (ks : List AES.Word) (hks : IsSchedule ks)
    (msg : List Byte) (hm : msg.length = 16) (hk : IR s₀ k (keyLayout ks)) (hy : IR s₀ y (strToInt msg)) (tail rest : List Op)
    (ha : ∀ op ∈ tail ++ rest, Away (s₀.n + 2) (s₀.n + 2 + aesEncKs.numGate) op)
    (ops₀ : List Op) (hs : List.Forall₂ SameShape ops₀ ((after s₀ k y).program ++ tail ++ [Op.reveal .pub ((outWires s₀.n).map wireNo)] ++ rest)) :
    Reads E d (keyRows (firstNo s₀) S) ((after s₀ k y).program ++ tail ++ [Op.reveal .pub ((outWires s₀.n).map wireNo)] ++ rest) ops₀ (strToInt (AES.cipher ks msg)) fun g dig =>
      ∀ x, dig = E.hash (guess E g (setDelta d) S (s₀.n + 2) ((outWires s₀.n).map wireNo) (strToInt (AES.cipher ks msg)) x)
        ↔ ∀ q < 16, S q = true → x.getD q 0 = (AES.rounds ks msg 9).getD q 0 := by
  have hin := (after_values hs₀ hks hm hk hy).1
  refine C82_state E hinj d S s₀ hs₀ k y ks hks msg hm hk hy tail rest (fun c => ?_) ops₀ hs
  rw [List.append_assoc, List.append_assoc]
  refine after_calm hs₀ hin S c _ fun op h => ?_
  rcases List.mem_append.1 h with h | h
  · exact ha op (List.mem_append_left _ h)
  · rcases List.mem_append.1 h with h | h
    · rw [List.mem_singleton] at h
      subst h
      trivial
    · exact ha op (List.mem_append_right _ h)

/-! ### From the state to the key -/

/-- What a guess says about the key: if it is right in byte `rowFrom i`, byte `i` of the last round key is known; if it is right in all bytes, the key is. -/
theorem C82_round_key {ks : List AES.Word} (hks : IsSchedule ks) (msg : List Byte) (hm : msg.length = 16) (x : List Byte) (i : Nat) (hi : i < 16)
    (hx : x.getD (rowFrom i) 0 = (AES.rounds ks msg 9).getD (rowFrom i) 0) :
    (AES.cipher ks msg).getD i 0 ^^^ AES.sbox (x.getD (rowFrom i) 0) = (AES.roundKey ks 10).getD i 0 := by
  rw [hx]; exact Verif.Lemmas.KeyBack.last_byte hks msg hm i hi

theorem eq_of_getD {a b : List Byte} {n : Nat} (ha : a.length = n) (hb : b.length = n) (h : ∀ q < n, a.getD q 0 = b.getD q 0) : a = b := by
  apply List.ext_getElem (ha.trans hb.symm)
  intro i h1 h2
  have := h i (by omega)
  rwa [List.getD_eq_getElem _ _ h1, List.getD_eq_getElem _ _ h2] at this

theorem C82_key (key msg : List Byte) (hk : key.length = 16) (hm : msg.length = 16) (x : List Byte) (hx : x.length = 16)
    (h : ∀ q < 16, x.getD q 0 = (AES.rounds (AES.keyExpansion key) msg 9).getD q 0) : keyOf (AES.aes128 key msg) x = key := by
  have hl := Verif.Lemmas.AESInj.length_rounds (isSchedule_keyExpansion key hk) msg hm 9 (by omega)
  rw [eq_of_getD hx hl h]
  exact Verif.Lemmas.KeyBack.keyOf_eq key msg hk

/-! ### A record -/

theorem run_of_ref {α : Type} {s : Sess} {m : M α} {R : Sess → α → Prop} (h : Verif.Lemmas.Gate.Ref s m R) (hs : Valid s) :
    ∃ a t, m plain s = .ok (a, t) ∧ Ext s t ∧ Valid t ∧ R t a := by
  obtain ⟨a, t, -, h1, h2, h3, h4⟩ := h hs
  exact ⟨a, t, h1 plain (agree_plain s t), h2, h3, h4⟩

theorem length_out (n : Nat) : (outWires n).length = 128 := by unfold outWires; simp

theorem inR_away {s : Sess} {w : Wire} (h : inR s w) (hi : Nat) : awayW (s.n + 2) hi w := by
  cases w with
  | pub b => exact away_pub (by omega) b
  | idx k =>
    have h : k < s.n := h
    exact Or.inl (show k + 2 < s.n + 2 by omega)

/-- `encrypt` of a record of 16 bytes whose message is not secret: the cipher circuit for the block of key stream runs in some session `s`, the counter is incremented, the block opened. -/
theorem encrypt_run (st : AeadG) (key fiv iv : List Byte) (hk : key.length = 16) (hf : fiv.length = 4) (hi : iv.length = 8) (s₀ : Sess) (hs₀ : Valid s₀)
    (h1 : IR s₀ st.expandedKey (keyLayout (AES.keyExpansion key))) (h2 : IR s₀ st.fixedIv (strToInt fiv)) (j : Nat → Nat → Wire) :
    ∃ (r : StreamG) (st' : AeadG) (t s : Sess) (y : SInt) (tail : List Op), st.encrypt empLib j iv 16 false plain s₀ = .ok ((r, st'), t)
      ∧ Valid s ∧ IR s st.expandedKey (keyLayout (AES.keyExpansion key)) ∧ IR s y (strToInt (GCM.bytesOf (GCM.inc32 (GCM.j0 (fiv ++ iv)))))
      ∧ r.z = outWires s.n
      ∧ t.program = (after s st.expandedKey y).program ++ tail ++ [Op.reveal .pub ((outWires s.n).map wireNo)]
      ∧ ∀ op ∈ tail, Away (s.n + 2) (s.n + 2 + aesEncKs.numGate) op := by
  have hsc := isSchedule_keyExpansion key hk
  have hkl : st.expandedKey.length = 1408 := by rw [h1.length]; rw [length_keyLayout _ hsc.2, hsc.1]
  obtain ⟨n0, s1, e1, x1, v1, r1⟩ := run_of_ref (ref_setNonce h2 iv (setNonce_eq fiv iv hi)) hs₀
  have l1 : (fiv ++ iv ++ [0#8, 0#8, 0#8, 1#8]).length = 16 := by simp [hf, hi]
  have hl0 : n0.length = 128 := by rw [r1.length]; simp [hf, hi]
  obtain ⟨v2, x2⟩ := after_valid v1 hsc l1 (h1.mono x1) r1
  obtain ⟨c, e2, c1, c2⟩ := inc_eq (strToInt (fiv ++ iv ++ [0#8, 0#8, 0#8, 1#8])) (by simp [hf, hi])
  obtain ⟨n1, s3, e3, x3, v3, r3⟩ := run_of_ref (ref_inc empLib_sound (r1.mono x2) 32 e2) v2
  have hc : c = strToInt (GCM.bytesOf (GCM.inc32 (GCM.j0 (fiv ++ iv)))) := by
    rw [← ofNat_block]
    refine blk_inj c1 (by simp) ?_
    rw [c2, blk_ofNat, blk_strToInt]
    rfl
  subst hc
  have h1' := ((h1.mono x1).mono x2).mono x3
  have hl1 : n1.length = 128 := by rw [r3.length, c1]
  have hin := (after_values v3 hsc (by simp) h1' r3).1
  obtain ⟨n2, s5, tail, e5, p5, -, a5, -⟩ := apart_inc (lo := s3.n + 2) (hi := s3.n + 2 + aesEncKs.numGate) (s := after s3 st.expandedKey n1) (by omega) (by omega)
    (fun w hw => inR_away (hin.2 w hw) _) (by show _ ≤ s3.n + aesEncKs.numGate + 2; omega) plain
  refine ⟨⟨outWires s1.n, outWires s3.n, some (Integer.toBytes (plain s5 .pub (outWires s3.n)))⟩, { st with nonce := n2 }, ⟨.reveal .pub (outWires s3.n) :: s5.evs, s5.n⟩, s3, n1, tail, ?_, v3,
    h1', r3, rfl, ?_, a5⟩
  · have hg : gctrG empLib j st.expandedKey 2 [] n0 plain s1 = .ok ((outWires s3.n ++ (outWires s1.n ++ []), n2), s5) := by
      unfold gctrG
      rw [bind_run (compute_closed plain s1 st.expandedKey n0 (j 1) hkl hl0), bind_run e3]
      unfold gctrG
      rw [bind_run (compute_closed plain s3 st.expandedKey n1 (j 0) hkl hl1), bind_run e5]
      rfl
    unfold AeadG.encrypt
    rw [bind_run e1, show 1 + AEAD.ctrLen 16 = 2 from rfl, bind_run hg]
    simp only [List.append_nil]
    rw [show (outWires s3.n ++ outWires s1.n).length - 128 = 128 by simp [length_out], show AEAD.padBits 16 = 0 from rfl, List.drop_zero,
      List.take_left' (length_out _), List.drop_left' (length_out _)]
    rfl
  · rw [← p5]
    simp [Sess.program, evOps]

/-- **C82, a record.**  `encrypt` (`protocol/aead.h:169-258`) of 16 bytes that are not secret, the size of a finished message, in a session of the offline/online backend after any
operations, followed by any operations that do not compute with the wires of its last cipher circuit: for the tables of the S-boxes `S` there is a change by which the garbler, from the digest at the
opening of the key stream, can check guesses of the state before the last round in the bytes `S`, and all that is opened is right. -/
theorem C82_encrypt (E : Env) (hinj : Function.Injective E.hash) (d : Block) (S : Nat → Bool) (st : AeadG) (key fiv iv : List Byte) (hk : key.length = 16) (hf : fiv.length = 4)
    (hi : iv.length = 8) (s₀ : Sess) (hs₀ : Valid s₀) (h1 : IR s₀ st.expandedKey (keyLayout (AES.keyExpansion key))) (h2 : IR s₀ st.fixedIv (strToInt fiv)) (j : Nat → Nat → Wire) :
    ∃ (r : StreamG) (st' : AeadG) (t : Sess) (k0 N : Nat), st.encrypt empLib j iv 16 false plain s₀ = .ok ((r, st'), t)
      ∧ ∀ (rest ops₀ : List Op), (∀ op ∈ rest, Away N (N + aesEncKs.numGate) op) → List.Forall₂ SameShape ops₀ (t.program ++ rest) →
        Reads E d (keyRows k0 S) (t.program ++ rest) ops₀ (strToInt (AES.aes128 key (GCM.bytesOf (GCM.inc32 (GCM.j0 (fiv ++ iv)))))) fun g dig =>
          (∀ x, dig = E.hash (guess E g (setDelta d) S N (r.z.map wireNo) (strToInt (AES.aes128 key (GCM.bytesOf (GCM.inc32 (GCM.j0 (fiv ++ iv)))))) x)
            ↔ ∀ q < 16, S q = true → x.getD q 0 = (AES.rounds (AES.keyExpansion key) (GCM.bytesOf (GCM.inc32 (GCM.j0 (fiv ++ iv)))) 9).getD q 0) := by
  obtain ⟨r, st', t, s, y, tail, e, v, g1, g2, hz, hp, ha⟩ := encrypt_run st key fiv iv hk hf hi s₀ hs₀ h1 h2 j
  refine ⟨r, st', t, firstNo s, s.n + 2, e, fun rest ops₀ hr hs => ?_⟩
  rw [hz, hp] at *
  exact C82_away E hinj d S s v st.expandedKey y _ (isSchedule_keyExpansion key hk) _ (by simp) g1 g2 tail rest
    (fun op h => (List.mem_append.1 h).elim (ha op) (hr op)) ops₀ hs

/-- **C82, the key.**  With the tables of all the S-boxes changed, one guess is accepted, and the key can be computed from it and the opened block. -/
theorem C82_whole_key (E : Env) (hinj : Function.Injective E.hash) (d : Block) (st : AeadG) (key fiv iv : List Byte) (hk : key.length = 16) (hf : fiv.length = 4)
    (hi : iv.length = 8) (s₀ : Sess) (hs₀ : Valid s₀) (h1 : IR s₀ st.expandedKey (keyLayout (AES.keyExpansion key))) (h2 : IR s₀ st.fixedIv (strToInt fiv)) (j : Nat → Nat → Wire) :
    ∃ (r : StreamG) (st' : AeadG) (t : Sess) (k0 N : Nat) (z : List Byte), st.encrypt empLib j iv 16 false plain s₀ = .ok ((r, st'), t)
      ∧ ∀ (rest ops₀ : List Op), (∀ op ∈ rest, Away N (N + aesEncKs.numGate) op) → List.Forall₂ SameShape ops₀ (t.program ++ rest) →
        Reads E d (keyRows k0 fun _ => true) (t.program ++ rest) ops₀ (strToInt z) fun g dig =>
          (∃ x, x.length = 16 ∧ dig = E.hash (guess E g (setDelta d) (fun _ => true) N (r.z.map wireNo) (strToInt z) x))
          ∧ ∀ x, x.length = 16 → dig = E.hash (guess E g (setDelta d) (fun _ => true) N (r.z.map wireNo) (strToInt z) x) → keyOf z x = key := by
  obtain ⟨r, st', t, k0, N, e, h⟩ := C82_encrypt E hinj d (fun _ => true) st key fiv iv hk hf hi s₀ hs₀ h1 h2 j
  refine ⟨r, st', t, k0, N, _, e, fun rest ops₀ hr hs => (h rest ops₀ hr hs).mono fun g dig hg => ⟨⟨_, ?_, (hg _).2 fun _ _ _ => rfl⟩, fun x hx hd => ?_⟩⟩
  · exact Verif.Lemmas.AESInj.length_rounds (isSchedule_keyExpansion key hk) _ (by simp) 9 (by omega)
  · exact C82_key key _ hk (by simp) x hx fun q hq => (hg x).1 hd q hq rfl

/-- **C82, one byte.**  With the tables of one S-box changed, exactly one of the 256 guesses is accepted, and it gives a byte of the last round key. -/
theorem C82_one_byte (E : Env) (hinj : Function.Injective E.hash) (d : Block) (i : Nat) (hi16 : i < 16) (st : AeadG) (key fiv iv : List Byte) (hk : key.length = 16) (hf : fiv.length = 4)
    (hi : iv.length = 8) (s₀ : Sess) (hs₀ : Valid s₀) (h1 : IR s₀ st.expandedKey (keyLayout (AES.keyExpansion key))) (h2 : IR s₀ st.fixedIv (strToInt fiv)) (j : Nat → Nat → Wire) :
    ∃ (r : StreamG) (st' : AeadG) (t : Sess) (k0 N : Nat) (z : List Byte), st.encrypt empLib j iv 16 false plain s₀ = .ok ((r, st'), t)
      ∧ ∀ (rest ops₀ : List Op), (∀ op ∈ rest, Away N (N + aesEncKs.numGate) op) → List.Forall₂ SameShape ops₀ (t.program ++ rest) →
        Reads E d (keyRows k0 (· == rowFrom i)) (t.program ++ rest) ops₀ (strToInt z) fun g dig =>
          ∀ b : Byte, dig = E.hash (guess E g (setDelta d) (· == rowFrom i) N (r.z.map wireNo) (strToInt z) (List.replicate 16 b))
            ↔ z.getD i 0 ^^^ AES.sbox b = (AES.roundKey (AES.keyExpansion key) 10).getD i 0 := by
  obtain ⟨r, st', t, k0, N, e, h⟩ := C82_encrypt E hinj d (· == rowFrom i) st key fiv iv hk hf hi s₀ hs₀ h1 h2 j
  refine ⟨r, st', t, k0, N, _, e, fun rest ops₀ hr hs => (h rest ops₀ hr hs).mono fun g dig hg b => ?_⟩
  have hq : rowFrom i < 16 := by unfold rowFrom; omega
  have hb : (List.replicate 16 b).getD (rowFrom i) 0 = b := by
    rw [List.getD_eq_getElem _ _ (by rw [List.length_replicate]; exact hq), List.getElem_replicate]
  have hl := Verif.Lemmas.KeyBack.last_byte (isSchedule_keyExpansion key hk) (GCM.bytesOf (GCM.inc32 (GCM.j0 (fiv ++ iv)))) (by simp) i hi16
  rw [hg]
  constructor
  · intro hx
    have := hx _ hq (by simp)
    rw [hb] at this
    rw [this]
    exact hl
  · intro hx q _ hS
    have : q = rowFrom i := by simpa using hS
    subst this
    rw [hb]
    rw [← hl] at hx
    refine Verif.Lemmas.AESInj.sbox_inj ?_
    have h3 := congrArg (fun v => (AES.aes128 key (GCM.bytesOf (GCM.inc32 (GCM.j0 (fiv ++ iv))))).getD i 0 ^^^ v) hx
    simp only [← BitVec.xor_assoc] at h3
    unfold AES.aes128 at h3
    simpa only [BitVec.xor_self, BitVec.zero_xor] using h3

/-! ### The hypotheses -/

/-- The constructor of `AEAD` (`protocol/aead.h:47-56`) makes an object as required. -/
theorem new_ready (j : Nat → Nat → Wire) {t : Sess} {k iv : SInt} {key fiv : List Byte} (hk : key.length = 16) (h : IR t k (strToInt key)) (hi : IR t iv (strToInt fiv)) :
    Verif.Lemmas.Gate.Ref t (AeadG.new j k iv) (fun u a => IR u a.2.expandedKey (keyLayout (AES.keyExpansion key)) ∧ IR u a.2.fixedIv (strToInt fiv)) := by
  unfold AeadG.new
  have e := Verif.Props.AESCircuit.C43_key_schedule (fun _ => false) key hk
  refine Verif.Lemmas.Gate.Ref.bind (Verif.Lemmas.Gate.ref_bristol ks_wired (j 0) (fun _ => false) h Verif.Lemmas.Gate.IR.nil e) fun a u x ha => ?_
  have e0 : AESCircuit.aesEncKs.compute (fun _ => false) (keyLayout (AES.keyExpansion key)) (ofNat 128 0) = .ok
      ((List.range aesEncKs.n3).map fun o => aesEncKs.run (aesEncKs.start (fun _ => false) (keyLayout (AES.keyExpansion key)) (ofNat 128 0)) aesEncKs.numGate (aesEncKs.numWire - aesEncKs.n3 + o)) := by
    have hsc := isSchedule_keyExpansion key hk
    unfold AESCircuit.Circuit.compute
    rw [if_neg (by rw [length_keyLayout _ hsc.2, hsc.1, Verif.Lemmas.length_ofNat]; decide)]
  refine Verif.Lemmas.Gate.Ref.bind (R := fun _ _ => True) ?_ fun b v y _ => Verif.Lemmas.Gate.Ref.pure ⟨ha.mono y, (hi.mono x).mono y⟩
  unfold Gate.computeAESKS
  exact Verif.Lemmas.Gate.Ref.bind (Verif.Lemmas.Gate.ref_bristol enc_wired (j 1) (fun _ => false) ha (IR.pubInt 128 0) e0) fun _ _ _ _ => Verif.Lemmas.Gate.Ref.pure trivial

/-- A session in which BOB feeds a key and an implicit nonce and the object is made meets the hypotheses on the session. -/
theorem ready (key fiv : List Byte) (hk : key.length = 16) (j : Nat → Nat → Wire) :
    ∃ (s : Sess) (st : AeadG), Valid s ∧ IR s st.expandedKey (keyLayout (AES.keyExpansion key)) ∧ IR s st.fixedIv (strToInt fiv) := by
  obtain ⟨a, t, -, -, v, h⟩ := run_of_ref (Verif.Lemmas.Gate.Ref.bind (Verif.Lemmas.Gate.Ref.feed .bob (strToInt key)) fun k u _ h1 =>
    Verif.Lemmas.Gate.Ref.bind (Verif.Lemmas.Gate.Ref.feed .bob (strToInt fiv)) fun iv w x h2 => new_ready j hk (h1.mono x) h2) Verif.Lemmas.Gate.valid_empty
  exact ⟨t, a.2, v, h⟩

/-- The hypotheses of `C82_whole_key` and `C82_one_byte` together; `rest` can be an input, a gate on it and an opening. -/
example : ∃ (E : Env) (s₀ : Sess) (st : AeadG), Function.Injective E.hash ∧ Valid s₀
    ∧ IR s₀ st.expandedKey (keyLayout (AES.keyExpansion (List.replicate 16 7))) ∧ IR s₀ st.fixedIv (strToInt (List.replicate 4 9)) := by
  obtain ⟨s, st, v, h⟩ := ready (List.replicate 16 7) (List.replicate 4 9) rfl (fun _ _ => .pub false)
  exact ⟨{ Verif.Props.exEnv with hash := fun l => Encodable.encode (l.map BitVec.toNat) }, s, st, fun a b h =>
    List.map_injective_iff.2 (fun _ _ h => BitVec.eq_of_toNat_eq h) (Encodable.encode_injective h), v, h⟩

example (N M : Nat) (hN : 2 ≤ N) : ∀ op ∈ [Op.inA true, .and 0 1, .reveal .pub [0]], Away N (N + M) op := by
  intro op h
  simp only [List.mem_cons, List.not_mem_nil, or_false] at h
  rcases h with rfl | rfl | rfl
  · trivial
  · exact ⟨Or.inl (by omega), Or.inl (by omega)⟩
  · trivial

/-- The functions of the garbler on the key and block of FIPS 197, appendix B: the last round key gives the key. -/
example : wordsFirst 10 [[0xd0, 0x14, 0xf9, 0xa8], [0xc9, 0xee, 0x25, 0x89], [0xe1, 0x3f, 0x0c, 0xc8], [0xb6, 0x63, 0x0c, 0xa6]]
    = [[0x2b, 0x7e, 0x15, 0x16], [0x28, 0xae, 0xd2, 0xa6], [0xab, 0xf7, 0x15, 0x88], [0x09, 0xcf, 0x4f, 0x3c]] := by decide +kernel

end Verif.Props.GarblerKeyAES
