import Verif.Lemmas.PRF

/-! C14: the TLS 1.2 PRF. -/

namespace Verif.Props
open Verif.Model Verif.Model.Integer Verif.Model.SHA Verif.Lemmas
open Verif.Spec Verif.Spec.Encoding

/-- What each call of a history should return: RFC 5246 `PRF` under the secret of the last `init`, truncated to the
requested number of bits. -/
def prfExpected : List Bool → List PrfOp → List (Option (List Bool))
  | _, [] => []
  | _, .init key :: ops => none :: prfExpected key.reverse ops
  | key, .compute b l s :: ops => some (HMAC.prf key l.reverse s.reverse b) :: prfExpected key ops
  | key, .optCompute _ b l s _ _ :: ops => some (HMAC.prf key (bytesBits l) (bytesBits s) b) :: prfExpected key ops
  | key, .optRounds b l s _ _ :: ops => some (HMAC.prf key (bytesBits l) (bytesBits s) b) :: prfExpected key ops

/-- Arguments within bounds. -/
def PrfOp.Valid : PrfOp → Prop
  | .init key => key.length < 2 ^ 63
  | .compute _ l s => l.length + s.length < 2 ^ 61
  | .optCompute g _ l s _ _ => (∀ i, (g i).length = 64) ∧ l.length + s.length < 2 ^ 58
  | .optRounds _ l s _ _ => l.length + s.length < 2 ^ 58

/-- Upper bound of the states opened by a call. -/
def PrfOp.cost : PrfOp → Nat
  | .init _ => 0
  | .compute _ _ _ => 0
  | .optCompute _ b _ _ _ _ => 2 * (b / 256 + 1)
  | .optRounds _ _ _ _ _ => 0

/-- Between two `init` calls at most one of the two optimised variants asks to reuse the inner state. -/
def PrfNoMix : Option Bool → List PrfOp → Prop
  | _, [] => True
  | _, .init _ :: ops => PrfNoMix none ops
  | k, .compute _ _ _ :: ops => PrfNoMix k ops
  | k, .optCompute _ _ _ _ ri _ :: ops => (ri = true → k ≠ some true) ∧ PrfNoMix (if ri then some false else k) ops
  | k, .optRounds _ _ _ ri _ :: ops => (ri = true → k ≠ some false) ∧ PrfNoMix (if ri then some true else k) ops

theorem compute_step {m : Hmac} {key inn} (h : HmacInv m key inn) (p : Prf) (res l s : Integer) (b : Nat)
    (hs : l.length + s.length < 2 ^ 61) :
    ∃ r p' m', p.compute m res b l s = .ok (r, p', m') ∧ HmacInv m' key inn ∧ m'.sha.ivIn = m.sha.ivIn
      ∧ r.reverse = res.reverse ++ HMAC.prf key l.reverse s.reverse b := by
  have hseed : (concat (concat [] [l]) [s]).reverse = l.reverse ++ s.reverse := by
    rw [concat_reverse, concat_reverse]; simp
  obtain ⟨r, m', e, h1, l1, hr⟩ := phashLoop_spec key _ _ hseed (by
      rw [← List.length_reverse, hseed, List.length_append, List.length_reverse, List.length_reverse]; exact hs) inn
    (prfBlocks b) 0 p m (concat (concat [] [l]) [s]) res res.reverse h hseed (by simp [HMAC.pHash])
  refine ⟨prfTrunc r b, { p with calls := p.calls + 2 * prfBlocks b }, m', ?_, h1, l1, prfTrunc_spec key _ _ res r b (by rw [hr, Nat.zero_add])⟩
  simp only [Prf.compute, Prf.phash, bind, Except.bind, e]

theorem optCompute_step {m : Hmac} {key inn} (h : HmacInv m key inn) (p : Prf) (g : Nat → List Byte)
    (hg : ∀ i, (g i).length = 64) (res : Integer) (l s : List Byte) (b : Nat) (ri ro : Bool)
    (hs : l.length + s.length < 2 ^ 58) (hc : ri = true → inn ≠ some true)
    (hsz : m.sha.ivIn.length + 2 * (b / 256 + 1) ≤ 2 ^ 64) :
    ∃ r p' m', p.optCompute m g res b l s ri ro false = .ok (r, p', m')
      ∧ HmacInv m' key (if ri then some false else inn)
      ∧ m'.sha.ivIn.length ≤ m.sha.ivIn.length + 2 * (b / 256 + 1)
      ∧ r.reverse = res.reverse ++ HMAC.prf key (bytesBits l) (bytesBits s) b
      ∧ ∃ opened, p'.pubM = p.pubM ++ opened
        ∧ opened.map (fun w => w.flatMap SHA256.wordBits)
          = (List.range (b / 256 + 1)).map fun j => HMAC.A key (bytesBits l ++ bytesBits s) (1 + j) := by
  have hbk : prfBlocks b = b / 256 + 1 := rfl
  obtain ⟨r, m', p', e, h1, l1, hr, _, _, _, op, o1, o2⟩ := optPhashLoop_spec key g hg (l ++ s)
    (by rw [List.length_append]; omega) ri ro (prfBlocks b) 0 inn p m (l ++ s) res res.reverse h hc
    (by rw [hbk]; exact hsz) rfl (by simp [HMAC.pHash])
  refine ⟨prfTrunc r b, p', m', ?_, ?_, by rw [← hbk]; exact l1, prfTrunc_spec key _ _ res r b ?_, op, o1, ?_⟩
  · simp only [Prf.optCompute, Prf.optPhash, bind, Except.bind, e]
  · simpa [hbk] using h1
  · rw [hr, Nat.zero_add, bytesBits_append]
  · rw [o2, ← hbk, bytesBits_append, Nat.zero_add]

theorem roundsCompute_step {m : Hmac} {key inn} (h : HmacInv m key inn) (p : Prf) (res : Integer)
    (l s : List Byte) (b : Nat) (ri ro : Bool)
    (hs : l.length + s.length < 2 ^ 58) (hc : ri = true → inn ≠ some false) :
    ∃ r p' m', p.optRoundsCompute m res b l s ri ro = .ok (r, p', m')
      ∧ HmacInv m' key (if ri then some true else inn) ∧ m'.sha.ivIn = m.sha.ivIn
      ∧ r.reverse = res.reverse ++ HMAC.prf key (bytesBits l) (bytesBits s) b := by
  have hbk : prfBlocks b ≠ 0 := by simp [prfBlocks]
  have hseed : (ofBytes (l ++ s).reverse).reverse = bytesBits l ++ bytesBits s := by
    rw [← bytesBits_append]; exact strToInt_reverse (l ++ s)
  obtain ⟨r, m', e, h1, l1, hr⟩ := roundsPhashLoop_spec key _ _ hseed
    (by rw [length_ofBytes, List.length_reverse, List.length_append]; omega) ri ro (prfBlocks b) 0 inn p m
    (ofBytes (l ++ s).reverse) res res.reverse h hc hseed (by simp [HMAC.pHash])
  refine ⟨prfTrunc r b, { p with calls := p.calls + 2 * prfBlocks b }, m', ?_, ?_, l1, prfTrunc_spec key _ _ res r b (by rw [hr, Nat.zero_add])⟩
  · simp only [Prf.optRoundsCompute, Prf.optRoundsPhash, bind, Except.bind, e]
  · simpa [hbk] using h1

theorem prf_run_spec (ops : List PrfOp) : ∀ (p : Prf) (m : Hmac) (key inn), HmacInv m key inn → PrfNoMix inn ops →
    (∀ op ∈ ops, PrfOp.Valid op) → m.sha.ivIn.length + (ops.map PrfOp.cost).sum ≤ 2 ^ 64 →
    ∃ p' m', p.run m ops = .ok (prfExpected key ops, p', m') := by
  induction ops with
  | nil => intro p m _ _ _ _ _ _; exact ⟨p, m, rfl⟩
  | cons op ops ih =>
    intro p m key inn h hc hv hl
    have hv0 := hv op (by simp)
    have hvr : ∀ op ∈ ops, PrfOp.Valid op := fun o ho => hv o (by simp [ho])
    rw [List.map_cons, List.sum_cons] at hl
    cases op with
    | init k =>
      obtain ⟨o, inv, _⟩ := h.sha
      obtain ⟨m1, e1, h1, l1⟩ := init_step m inv.pos k hv0
      obtain ⟨p', m', e⟩ := ih { p with calls := 0 } m1 _ _ h1 hc hvr (by rw [l1]; omega)
      exact ⟨p', m', by simp only [Prf.run, Prf.step, Prf.init, bind, Except.bind, e1, e]; rfl⟩
    | compute b l s =>
      obtain ⟨r, p1, m1, e1, h1, l1, r1⟩ := compute_step h p [] l s b hv0
      obtain ⟨p', m', e⟩ := ih p1 m1 _ _ h1 hc hvr (by rw [l1]; omega)
      rw [List.reverse_nil, List.nil_append] at r1
      exact ⟨p', m', by simp only [Prf.run, Prf.step, bind, Except.bind, e1, e, r1]; rfl⟩
    | optCompute g b l s ri ro =>
      obtain ⟨hc1, hc2⟩ := hc
      have hcost : PrfOp.cost (.optCompute g b l s ri ro) = 2 * (b / 256 + 1) := rfl
      rw [hcost] at hl
      obtain ⟨r, p1, m1, e1, h1, l1, r1, _⟩ := optCompute_step h p g hv0.1 [] l s b ri ro hv0.2 hc1 (by omega)
      obtain ⟨p', m', e⟩ := ih p1 m1 _ _ h1 hc2 hvr (by omega)
      rw [List.reverse_nil, List.nil_append] at r1
      exact ⟨p', m', by simp only [Prf.run, Prf.step, bind, Except.bind, e1, e, r1]; rfl⟩
    | optRounds b l s ri ro =>
      obtain ⟨hc1, hc2⟩ := hc
      obtain ⟨r, p1, m1, e1, h1, l1, r1⟩ := roundsCompute_step h p [] l s b ri ro hv0 hc1
      obtain ⟨p', m', e⟩ := ih p1 m1 _ _ h1 hc2 hvr (by rw [l1]; omega)
      rw [List.reverse_nil, List.nil_append] at r1
      exact ⟨p', m', by simp only [Prf.run, Prf.step, bind, Except.bind, e1, e, r1]; rfl⟩

/-- **C14.**  Along every history of a `PRF` object and its `HMAC` object — re-keyings, output lengths (also zero and
exact multiples of 256), labels, seeds and reuse flags all arbitrary — each call returns the first `bitlen` bits of
`P_SHA256(secret, label || seed)` for the secret of the last `init`.  The only histories excluded are those in which
both optimised variants reuse the inner state of one secret (see `C13_mixing_undefined`). -/
theorem C14_history (key : Integer) (ops : List PrfOp) (hk : key.length < 2 ^ 63) (hc : PrfNoMix none ops)
    (hv : ∀ op ∈ ops, PrfOp.Valid op) (hl : (ops.map PrfOp.cost).sum ≤ 2 ^ 64) :
    ∃ p' m', Prf.new.run Hmac.new (.init key :: ops) = .ok (none :: prfExpected key.reverse ops, p', m') := by
  obtain ⟨m1, e1, h1, l1⟩ := init_step Hmac.new ShaInv.new.pos key hk
  obtain ⟨p', m', e⟩ := prf_run_spec ops { Prf.new with calls := 0 } m1 _ _ h1 hc hv
    (by rw [l1]; simpa [Hmac.new, Sha.new] using hl)
  exact ⟨p', m', by simp only [Prf.run, Prf.step, Prf.init, bind, Except.bind, e1, e]⟩

/-- **C14.**  The three functions agree on the same secret, label and seed bytes, whatever the flags. -/
theorem C14_agree (key : Integer) (hk : key.length < 2 ^ 63) (l s : List Byte) (hs : l.length + s.length < 2 ^ 58)
    (b : Nat) (hb : b < 2 ^ 64) (g : Nat → List Byte) (hg : ∀ i, (g i).length = 64) (ri ro ri' ro' : Bool) :
    ∃ out p1 m1 p2 m2 p3 m3,
      Prf.new.run Hmac.new [.init key, .compute b (strToInt l) (strToInt s)] = .ok ([none, some out], p1, m1)
      ∧ Prf.new.run Hmac.new [.init key, .optCompute g b l s ri ro] = .ok ([none, some out], p2, m2)
      ∧ Prf.new.run Hmac.new [.init key, .optRounds b l s ri' ro'] = .ok ([none, some out], p3, m3)
      ∧ out.length = b := by
  have hcost : 2 * (b / 256 + 1) ≤ 2 ^ 64 := by omega
  obtain ⟨p1, m1, e1⟩ := C14_history key [.compute b (strToInt l) (strToInt s)] hk trivial
    (by intro op hop; rw [List.mem_singleton.1 hop]; show _ < _; rw [← List.length_reverse (as := strToInt l), strToInt_reverse,
      ← List.length_reverse (as := strToInt s), strToInt_reverse, length_bytesBits, length_bytesBits]; omega)
    (by simp [PrfOp.cost])
  obtain ⟨p2, m2, e2⟩ := C14_history key [.optCompute g b l s ri ro] hk (by simp [PrfNoMix])
    (by intro op hop; rw [List.mem_singleton.1 hop]; exact ⟨hg, hs⟩)
    (by simpa [PrfOp.cost] using hcost)
  obtain ⟨p3, m3, e3⟩ := C14_history key [.optRounds b l s ri' ro'] hk (by simp [PrfNoMix])
    (by intro op hop; rw [List.mem_singleton.1 hop]; exact hs)
    (by simp [PrfOp.cost])
  refine ⟨HMAC.prf key.reverse (bytesBits l) (bytesBits s) b, p1, m1, p2, m2, p3, m3, ?_, e2, e3, ?_⟩
  · rw [e1]; simp only [prfExpected, strToInt_reverse]
  · unfold HMAC.prf; rw [List.length_take, length_pHash]; omega

example : PrfNoMix none [.optCompute (fun _ => List.replicate 64 0) 256 [1] [2, 3] true true, .compute 100 [true] [],
      .optCompute (fun _ => List.replicate 64 5) 0 [] [] true true, .init [true], .optRounds 384 [1] [] true false]
    ∧ ∀ op ∈ ([.optCompute (fun _ => List.replicate 64 0) 256 [1] [2, 3] true true, .compute 100 [true] [],
      .optCompute (fun _ => List.replicate 64 5) 0 [] [] true true, .init [true], .optRounds 384 [1] [] true false] :
        List PrfOp), PrfOp.Valid op := by
  refine ⟨by simp [PrfNoMix], by simp [-List.reduceReplicate, PrfOp.Valid]⟩

end Verif.Props
