import Verif.Model.ZkView
import Verif.Props.SessionBound

/-!
C75: what the verifier learns in the proof phase.
-/

namespace Verif.Props.ZkView
open Verif.Model Verif.Model.Integer Verif.Model.AEADProof Verif.Model.SHA Verif.Model.ZkCheck Verif.Model.Session Verif.Model.ZkVerifier
open Verif.Spec Verif.Spec.Encoding
open Verif.Props.HandshakeProof (Short master Ready bind_ok)
open Verif.Lemmas Verif.Props Verif.Props.AEADProof Verif.Props.Session Verif.Props.ZkForgery Verif.Props.SessionBound
open Verif.Props.Garbled (aes)

/-! ### Statement -/

/-- The simulator: from BOB's keys, the circuit, the public data and the bits opened, without ALICE's bits.  It is BOB's own transcript, hashed. -/
def simulate {δ : Type} {n : Nat} (D : List Block → δ) (delta : Block) (pub : Bool → Block) (t : List Block) (l : List (WItem n)) (k : Fin n → Block) :
    (Fin n → Block) × Option δ :=
  (k, (bobPuts delta (fun b => wireKey delta (pub b) b) k t l).toOption.map D)

/-! ### Wires -/

theorem wire_key {n : Nat} (d one : Block) (m : Fin n → Block) (x : Fin n → Bool) (w : Wire n) :
    wireKey d (w.block one m) (w.bit x) = w.block (wireKey d one true) fun i => wireKey d (m i) (x i) := by
  obtain ⟨ins, c⟩ := w
  simp only [Wire.block, Wire.bit]
  have : ∀ (l : List (Fin n)) (a : Block) (b : Bool),
      wireKey d (l.foldl (fun a i => a ^^^ m i) a) (l.foldl (fun a i => a != x i) b) = l.foldl (fun a i => a ^^^ wireKey d (m i) (x i)) (wireKey d a b) := by
    intro l
    induction l with
    | nil => intro a b; rfl
    | cons i l ih =>
      intro a b
      rw [List.foldl_cons, List.foldl_cons, List.foldl_cons, ih]
      congr 1
      simp only [wireKey_eq]
      apply BitVec.eq_of_getLsbD_eq
      intro j hj
      cases b <;> cases x i <;> simp only [bitMul, BitVec.getLsbD_xor] <;> simp
      all_goals (generalize a.getLsbD j = u; generalize (m i).getLsbD j = v; generalize d.getLsbD j = w; cases u <;> cases v <;> cases w <;> rfl)
  rw [this]
  cases c <;> simp [wireKey]

theorem wires_keys {n : Nat} (d one : Block) (m : Fin n → Block) (x : Fin n → Bool) (r : List (Wire n)) :
    keysOf d (r.map (Wire.block one m)) (r.map (Wire.bit x)) = r.map (Wire.block (wireKey d one true) fun i => wireKey d (m i) (x i)) := by
  induction r with
  | nil => rfl
  | cons w r ih =>
    simp only [keysOf, List.map_cons, List.zipWith_cons_cons, List.cons.injEq] at ih ⊢
    exact ⟨wire_key d one m x w, ih⟩

/-- What BOB puts for an item does not depend on ALICE's bits but through the keys. -/
theorem put_keys {n : Nat} (d : Block) (pub : Bool → Block) (x : Fin n → Bool) (m : Fin n → Block) (t : List Block) (i : WItem n) :
    put d pub t (i.item x) (i.macs (pub true) m) = i.put d (fun b => wireKey d (pub b) b) (fun i => wireKey d (m i) (x i)) t := by
  cases i <;> simp only [WItem.item, WItem.macs, WItem.put, put, wires_keys]

theorem putAll_keys {n : Nat} (d : Block) (pub : Bool → Block) (x : Fin n → Bool) (m : Fin n → Block) : ∀ (l : List (WItem n)) (t : List Block),
    putAll d pub t (l.map fun i => (i.item x, i.macs (pub true) m)) = bobPuts d (fun b => wireKey d (pub b) b) (fun i => wireKey d (m i) (x i)) t l
  | [], t => rfl
  | i :: l, t => by
    simp only [List.map_cons, putAll, bobPuts, put_keys]
    congr 1
    funext t'
    exact putAll_keys d pub x m l t'

theorem item_fits {n : Nat} (one : Block) (x : Fin n → Bool) (m : Fin n → Block) (i : WItem n) (hc : Claims (i.item x)) : Fits (i.item x) (i.macs one m) := by
  cases i with
  | opening r y =>
    have : r.map (Wire.bit x) = y := hc
    exact ⟨by simp [WItem.macs], by rw [← this]⟩
  | _ => simp [WItem.item, WItem.macs, Fits]

/-! ### The view -/

/-- **C75.**  What an ALICE who follows the protocol sends is what BOB computes itself: if all items are right, the digest that BOB receives is the digest of what BOB puts, a
function of BOB's keys and offset, the circuit, the public data and the bits opened. -/
theorem C75_view {δ : Type} {n : Nat} (D : List Block → δ) (delta : Block) (pub : Bool → Block) (t : List Block) (l : List (WItem n)) (x : Fin n → Bool)
    (hl : ∀ i ∈ l, Lengths (i.item x)) (hc : ∀ i ∈ l, Claims (i.item x)) (m : Fin n → Block) :
    simulate D delta pub t l (fun i => wireKey delta (m i) (x i)) = ((view D delta pub t l x m).1, some (view D delta pub t l x m).2) := by
  have h := C73_honest pub (l.map fun i => (i.item x, i.macs (pub true) m)) (by
      intro p hp
      obtain ⟨i, hi, rfl⟩ := List.mem_map.1 hp
      exact item_fits _ x m i (hc i hi)) (by
      intro p hp
      obtain ⟨i, hi, rfl⟩ := List.mem_map.1 hp
      exact hl i hi) (by
      intro p hp
      obtain ⟨i, hi, rfl⟩ := List.mem_map.1 hp
      exact hc i hi) delta t
  rw [putAll_keys] at h
  simp only [simulate, view, h, List.flatMap_map]
  rfl

/-- **C75, distribution.**  ALICE's blocks drawn uniformly, whatever its bits are (all items being right): every event about what BOB sees has as many blocks as keys for which the
simulator, which does not know the bits, produces it. -/
theorem C75_count {δ : Type} {n : Nat} (D : List Block → δ) (delta : Block) (pub : Bool → Block) (t : List Block) (l : List (WItem n)) (x : Fin n → Bool)
    (hl : ∀ i ∈ l, Lengths (i.item x)) (hc : ∀ i ∈ l, Claims (i.item x)) (Q : (Fin n → Block) × Option δ → Prop) :
    Nat.card {m : Fin n → Block // Q ((view D delta pub t l x m).1, some (view D delta pub t l x m).2)} = Nat.card {k : Fin n → Block // Q (simulate D delta pub t l k)} := by
  have hinv : ∀ m : Fin n → Block, (fun i => wireKey delta (wireKey delta (m i) (x i)) (x i)) = m := by
    intro m
    funext i
    cases x i <;> simp [wireKey, BitVec.xor_assoc]
  refine Nat.card_congr ⟨fun m => ⟨fun i => wireKey delta (m.1 i) (x i), ?_⟩, fun k => ⟨fun i => wireKey delta (k.1 i) (x i), ?_⟩, ?_, ?_⟩
  · rw [C75_view D delta pub t l x hl hc]; exact m.2
  · rw [← C75_view D delta pub t l x hl hc, hinv]; exact k.2
  · intro m; exact Subtype.ext (hinv m.1)
  · intro k; exact Subtype.ext (hinv k.1)

/-! ### A session -/

/-- The blocks opened at the end of a proof phase with keys `k`: the two hash keys, the masks of the finished messages, the masks of the client's and of the server's
records. -/
def openedBlocks (k : Garbled.Keys) (ivc ivs : List Byte) (claims : List Claim) : List Block :=
  [aes k.ck 0, aes k.sk 0, aes k.ck (GCM.j0 (k.civ ++ ivc)), aes k.sk (GCM.j0 (k.siv ++ ivs))]
    ++ (claims.filter (·.kind = .client)).map (fun c => aes k.ck (GCM.j0 (k.civ ++ c.iv)))
    ++ (claims.filter (·.kind ≠ .client)).map (fun c => aes k.sk (GCM.j0 (k.siv ++ c.iv)))

theorem out_client (k : Garbled.Keys) : ∀ claims : List Claim, (((claims.map (outOf k)).filter (·.1.kind = .client)).map (·.2.2)).flatten
    = ((claims.filter (·.kind = .client)).map fun c => aes k.ck (GCM.j0 (k.civ ++ c.iv))).flatMap fun x => strToInt (GCM.bytesOf x)
  | [] => rfl
  | ⟨.client, iv, b⟩ :: l => by
    have ih := out_client k l
    rw [List.map_cons, List.filter_cons_of_pos (by rfl), List.filter_cons_of_pos (by rfl), List.map_cons, List.map_cons, List.flatten_cons, List.flatMap_cons, ih]
    rfl
  | ⟨.server, iv, b⟩ :: l => by
    have ih := out_client k l
    rw [List.map_cons, List.filter_cons_of_neg (by simp [outOf]), List.filter_cons_of_neg (by simp), ih]
  | ⟨.last, iv, b⟩ :: l => by
    have ih := out_client k l
    rw [List.map_cons, List.filter_cons_of_neg (by simp [outOf]), List.filter_cons_of_neg (by simp), ih]

theorem out_server (k : Garbled.Keys) : ∀ claims : List Claim, (((claims.map (outOf k)).filter (·.1.kind ≠ .client)).map (·.2.2)).flatten
    = ((claims.filter (·.kind ≠ .client)).map fun c => aes k.sk (GCM.j0 (k.siv ++ c.iv))).flatMap fun x => strToInt (GCM.bytesOf x)
  | [] => rfl
  | ⟨.client, iv, b⟩ :: l => by
    have ih := out_server k l
    rw [List.map_cons, List.filter_cons_of_neg (by simp [outOf]), List.filter_cons_of_neg (by simp), ih]
  | ⟨.server, iv, b⟩ :: l => by
    have ih := out_server k l
    rw [List.map_cons, List.filter_cons_of_pos (by rfl), List.filter_cons_of_pos (by rfl), List.map_cons, List.map_cons, List.flatten_cons, List.flatMap_cons, ih]
    rfl
  | ⟨.last, iv, b⟩ :: l => by
    have ih := out_server k l
    rw [List.map_cons, List.filter_cons_of_pos (by rfl), List.filter_cons_of_pos (by rfl), List.map_cons, List.map_cons, List.flatten_cons, List.flatMap_cons, ih]
    rfl

theorem given_value {junk : AESCircuit.Wires} {p p' : Post} {k : Garbled.Keys} (l1 : k.ck.length = 16) (l2 : k.sk.length = 16) (l3 : k.civ.length = 4) (l4 : k.siv.length = 4)
    {mk : Integer} {cc cs : Check} {h' : HsP}
    {finc : PostRecord.Rec} {ivc : List Byte} {fins : PostRecord.Rec} {ivs : List Byte} {claims : List Claim} {aadLen : Nat} {b : Bob}
    (h : verifyGiven junk p (mk, ⟨strToInt k.ck, strToInt k.sk, strToInt k.civ, strToInt k.siv⟩, cc, cs, h') finc ivc fins ivs claims aadLen = .ok (p', b)) :
    b.value = (openedBlocks k ivc ivs claims).flatMap fun x => strToInt (GCM.bytesOf x) := by
  obtain ⟨⟨p1, k1⟩, e1, h⟩ := bind_ok.mp h
  obtain ⟨⟨p2, k2⟩, e2, h⟩ := bind_ok.mp h
  unfold Post.step1Given at e1
  simp only at e1
  rw [ok_bind _ _ (encrypter_eq junk k.ck l1)] at e1
  obtain ⟨⟨pc, hcc⟩, f3, e1⟩ := bind_ok.mp e1
  simp only at e1
  rw [ok_bind _ _ (encrypter_eq junk k.sk l2)] at e1
  obtain ⟨⟨ps, hcs⟩, f5, e1⟩ := bind_ok.mp e1
  simp only [Except.ok.injEq, Prod.mk.injEq] at e1
  obtain ⟨rfl, rfl⟩ := e1
  obtain ⟨rfl, rfl⟩ := construct_inv f3
  obtain ⟨rfl, rfl⟩ := construct_inv f5
  simp only [Post.step2] at e2
  obtain ⟨⟨st2, k2', m2, z2⟩, e6, e2⟩ := bind_ok.mp e2
  simp only [Except.ok.injEq, Prod.mk.injEq] at e2
  obtain ⟨rfl, rfl⟩ := e2
  simp only at h
  obtain ⟨⟨st, k3, o, z0⟩, e3, h⟩ := bind_ok.mp h
  obtain ⟨hs, e4, h⟩ := bind_ok.mp h
  obtain ⟨⟨p4, k4, out⟩, e5, h⟩ := bind_ok.mp h
  obtain ⟨-, z2e, -⟩ := prove_inv l3 e6
  obtain ⟨-, z3e, -⟩ := prove_inv l4 e3
  obtain ⟨ho, ob, zc, zs⟩ := records_inv l3 l4 claims (p := _) ⟨rfl, rfl⟩ e5
  subst ho
  simp only [ob.c, ob.s] at h
  split at h
  · cases h
  · split at h
    · cases h
    · simp only [Except.ok.injEq, Prod.mk.injEq] at h
      obtain ⟨-, rfl⟩ := h
      simp only at zc zs
      simp only [openedValue, reverseConcat_eq, zc, zs, z2e, z3e, List.nil_append, List.flatten_cons, List.flatten_nil, List.append_nil]
      rw [out_client, out_server]
      simp only [openedBlocks, List.flatMap_append, List.flatMap_cons, List.flatMap_nil, List.append_nil, List.append_assoc]

/-- **C75, a session.**  If the session of both parties is accepted, BOB's run goes through, and whatever the wires of the items are: for every offset, every event about what BOB
sees has as many blocks of ALICE as keys for which the simulator, given the bits opened at the end, produces it. -/
theorem C75_session {junk : AESCircuit.Wires} {p p' : Post} {g : Nat → List Byte} {pms : Nat} {k : MasterSeed} {rc rs tauC tauS : List Byte}
    {finc : PostRecord.Rec} {ivc : List Byte} {fins : PostRecord.Rec} {ivs : List Byte} {claims : List Claim} {aadLen : Nat} {v : Verdict}
    (h : p.session junk g pms k rc rs tauC tauS finc ivc fins ivs claims aadLen = .ok (p', v)) (hacc : Accepted v) :
    ∃ b, verify junk p g pms k rc rs tauC tauS finc ivc fins ivs claims aadLen = .ok (p', b)
      ∧ ∀ {δ : Type} (D : List Block → δ) (delta : Block) (pub : Bool → Block) (t : List Block) {n : Nat} (l : List (WItem n)) (x : Fin n → Bool),
        l.map (WItem.item x) = b.items ++ [.opening b.value b.value] → ∀ Q : (Fin n → Block) × Option δ → Prop,
        Nat.card {m : Fin n → Block // Q ((view D delta pub t l x m).1, some (view D delta pub t l x m).2)} = Nat.card {k : Fin n → Block // Q (simulate D delta pub t l k)} := by
  obtain ⟨b, e1, -, H⟩ := verify_runs h
  obtain ⟨e2, -⟩ := H hacc
  refine ⟨b, e1, ?_⟩
  intro δ D delta pub t n l x he Q
  refine C75_count D delta pub t l x ?_ ?_ Q
  · intro i hi
    have : i.item x ∈ b.items ++ [.opening b.value b.value] := he ▸ List.mem_map_of_mem hi
    rcases List.mem_append.1 this with h | h
    · exact items_lengths e1 _ h (e2 _ h)
    · rw [List.mem_singleton.1 h]; trivial
  · intro i hi
    have : i.item x ∈ b.items ++ [.opening b.value b.value] := he ▸ List.mem_map_of_mem hi
    rcases List.mem_append.1 this with h | h
    · exact e2 _ h
    · rw [List.mem_singleton.1 h]; rfl

/-- **C75, the bits opened.**  After an honest handshake, in a session on the records of the connection: the bits opened at the end are the two hash keys and the masks of the tags
of the finished messages and of the records claimed, under the TLS keys. -/
theorem C75_opened (q : Nat) (rounds : Bool) (u v : List Byte) (hq : bnNumBytes q < 2 ^ 59) (g : Nat → List Byte) (hg : ∀ i, (g i).length = 64)
    (a b : Nat) (ha : a < q) (hb : b < q) (k : MasterSeed) (rc rs tauC tauS : List Byte) (hs : Short k rc rs tauC tauS) :
    ∃ h keys, (Hs.new q rounds u v).schedule g a b k rc rs tauC tauS = .ok h
      ∧ Garbled.Keys.Of keys (master k (SHA256.beBits (8 * bnNumBytes q) ((a + b) % q)) (bytesBits rc) (bytesBits rs)) (bytesBits rc) (bytesBits rs)
      ∧ h.clientWriteKey = strToInt keys.ck ∧ h.serverWriteKey = strToInt keys.sk ∧ h.clientWriteIv = strToInt keys.civ ∧ h.serverWriteIv = strToInt keys.siv
      ∧ ∀ (junk : AESCircuit.Wires) (c s : AEAD.State) (finc : PostRecord.Rec) (ivc : List Byte) (fins : PostRecord.Rec) (ivs : List Byte) (claims : List Claim) (aadLen : Nat)
          (p' : Post) (bob : Bob),
          verify junk { hs := ⟨h, a, b⟩, c := c, s := s } g ((a + b) % q) k rc rs tauC tauS finc ivc fins ivs claims aadLen = .ok (p', bob) →
          bob.value = (openedBlocks keys ivc ivs claims).flatMap fun x => strToInt (GCM.bytesOf x) := by
  obtain ⟨h, keys, e1, e2, e3, e4, e5, e6, l1, l2, l3, l4, mk, cc, cs, h', f, -⟩ := honest_keys q rounds u v hq g hg a b ha hb k rc rs tauC tauS hs
  refine ⟨h, keys, e1, e2, e3, e4, e5, e6, ?_⟩
  intro junk c s finc ivc fins ivs claims aadLen p' bob hv
  rw [(C74_session_eq _ _ _ _ _ _ _ _ _ _ _ _ _ _ _).2, ok_bind _ _ f] at hv
  exact given_value l1 l2 l3 l4 hv

/-! ### Cases -/

/-- Two wires, a zero and a one. -/
def bits2 : Fin 2 → Bool := fun i => i = 1

def wire2 (b : Bool) : Wire 2 := ⟨[if b then 1 else 0], false⟩

theorem wire2_bit (b : Bool) : (wire2 b).bit bits2 = b := by cases b <;> rfl

theorem wires2_bits (x : Integer) : (x.map wire2).map (Wire.bit bits2) = x := by
  rw [List.map_map]
  conv_rhs => rw [← List.map_id x]
  exact List.map_congr_left fun b _ => wire2_bit b

/-- All items can be wired. -/
def wireUp : Item → WItem 2
  | .check (.block r p g) => .block (r.map wire2) (p.map wire2) g
  | .check (.bytes r p g) => .bytes (r.map wire2) (p.map wire2) g
  | .check (.data r d) => .data (r.map wire2) d
  | .words x w => .words (x.map wire2) w
  | .opening x y => .opening (x.map wire2) y

theorem wireUp_item (l : List Item) : (l.map wireUp).map (WItem.item bits2) = l := by
  rw [List.map_map]
  conv_rhs => rw [← List.map_id l]
  refine List.map_congr_left fun i _ => ?_
  match i with
  | .check (.block r p g) => simp only [Function.comp, wireUp, WItem.item, wires2_bits, id]
  | .check (.bytes r p g) => simp only [Function.comp, wireUp, WItem.item, wires2_bits, id]
  | .check (.data r d) => simp only [Function.comp, wireUp, WItem.item, wires2_bits, id]
  | .words x w => simp only [Function.comp, wireUp, WItem.item, wires2_bits, id]
  | .opening x y => simp only [Function.comp, wireUp, WItem.item, wires2_bits, id]

/-- The hypotheses of `C75_session` are met for every accepted session (there are such: `C52_honest`): the items of BOB's run can be wired. -/
example (b : Bob) : ∃ (n : Nat) (l : List (WItem n)) (x : Fin n → Bool), l.map (WItem.item x) = b.items ++ [.opening b.value b.value] :=
  ⟨2, _, bits2, wireUp_item _⟩

/-- A word of three wires `x`, `y`, `x ^ y ^ 1` and 29 zeros opened as 2 (`x = 0`, `y = 1`): with ALICE's blocks drawn at random the digest (the whole transcript) has, for each
transcript, as many blocks as keys. -/
example (delta : Block) (pub : Bool → Block) (T : List Block) :
    let l : List (WItem 2) := [.words ([⟨[0], false⟩, ⟨[1], false⟩, ⟨[0, 1], true⟩] ++ List.replicate 29 ⟨[0], false⟩) [2]]
    Nat.card {m : Fin 2 → Block // (view id delta pub [] l bits2 m).2 = T} = Nat.card {k : Fin 2 → Block // (simulate id delta pub [] l k).2 = some T} := by
  intro l
  have := C75_count id delta pub [] l bits2 (by intro i hi; rw [List.mem_singleton.1 hi]; show List.length _ = _; decide)
    (by intro i hi; rw [List.mem_singleton.1 hi]; show _ = wordsInt [2]; decide) (fun p => p.2 = some T)
  simpa using this

end Verif.Props.ZkView
