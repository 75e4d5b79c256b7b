import Verif.Props.PRF

/-! # C98: the counters of calls of `PRF`, `HMAC_SHA256` and `SHA256` -/

namespace Verif.Props.Counters
open Verif.Model Verif.Model.Integer Verif.Model.SHA

theorem bind_ok {α β : Type} {x : Res α} {f : α → Res β} {b : β} (h : (x >>= f) = .ok b) : ∃ a, x = .ok a ∧ f a = .ok b := by
  cases x with
  | error e => cases h
  | ok a => exact ⟨a, rfl, h⟩

/-! ### HMAC calls and SHA-256 calls -/

/-- What `hmac_calls()` and `SHA256_call` should say after a call: an HMAC is two digests, a PRF of `bitlen` bits is made of
`⌊bitlen / 256⌋ + 1` blocks of two HMACs each, and a key of more than 512 bits is hashed. -/
def count (c : Nat × Nat) : PrfOp → Nat × Nat
  | .init k => (0, if 512 < k.length then 1 else 0)
  | .compute b _ _ => (c.1 + 2 * (b / 256 + 1), c.2 + 4 * (b / 256 + 1))
  | .optCompute _ b _ _ _ _ => (c.1 + 2 * (b / 256 + 1), c.2 + 4 * (b / 256 + 1))
  | .optRounds b _ _ _ _ => (c.1 + 2 * (b / 256 + 1), c.2 + 4 * (b / 256 + 1))

theorem hmac_shaCalls {m m' : Hmac} {x : Integer} {r} (h : m.hmac x = .ok (r, m')) : m'.shaCalls = m.shaCalls + 2 := by
  obtain ⟨a, _, h⟩ := bind_ok h
  obtain ⟨b, _, h⟩ := bind_ok h
  cases h; rfl

theorem optHmac_shaCalls {m m' : Hmac} {g x : List Byte} {ri ro zk : Bool} {r} (h : m.optHmac g x ri ro zk = .ok (r, m')) :
    m'.shaCalls = m.shaCalls + 2 := by
  obtain ⟨a, _, h⟩ := bind_ok h
  obtain ⟨b, _, h⟩ := bind_ok h
  cases h; rfl

theorem rounds_shaCalls {m m' : Hmac} {x : Integer} {ri ro : Bool} {r} (h : m.optRoundsHmac x ri ro = .ok (r, m')) :
    m'.shaCalls = m.shaCalls + 2 := by
  obtain ⟨a, _, h⟩ := bind_ok h
  obtain ⟨b, _, h⟩ := bind_ok h
  cases h; rfl

theorem init_shaCalls {m m' : Hmac} {k : Integer} (h : m.init k = .ok m') : m'.shaCalls = if 512 < k.length then 1 else 0 := by
  obtain ⟨a, ha, h⟩ := bind_ok h
  cases h
  by_cases hk : 512 < k.length
  · rw [if_pos hk] at ha ⊢
    obtain ⟨b, _, ha⟩ := bind_ok ha
    cases ha; rfl
  · rw [if_neg hk] at ha ⊢
    cases ha; rfl

theorem phash_calls (seed : Integer) : ∀ (n : Nat) {p p' : Prf} {m m' : Hmac} {a res r : Integer},
    phashLoop seed n p m a res = .ok (r, p', m') → p'.calls = p.calls + 2 * n ∧ m'.shaCalls = m.shaCalls + 4 * n
  | 0, _, _, _, _, _, _, _, h => by cases h; exact ⟨rfl, rfl⟩
  | n + 1, p, p', m, m', a, res, r, h => by
    obtain ⟨⟨t1, m1⟩, h1, h⟩ := bind_ok h
    obtain ⟨⟨t2, m2⟩, h2, h⟩ := bind_ok h
    obtain ⟨e1, e2⟩ := phash_calls seed n h
    have k1 := hmac_shaCalls h1
    have k2 := hmac_shaCalls h2
    simp only at e1 e2
    exact ⟨by omega, by omega⟩

theorem rounds_calls (seed : Integer) (ri ro : Bool) : ∀ (n : Nat) {p p' : Prf} {m m' : Hmac} {a res r : Integer},
    roundsPhashLoop seed ri ro n p m a res = .ok (r, p', m') → p'.calls = p.calls + 2 * n ∧ m'.shaCalls = m.shaCalls + 4 * n
  | 0, _, _, _, _, _, _, _, h => by cases h; exact ⟨rfl, rfl⟩
  | n + 1, p, p', m, m', a, res, r, h => by
    obtain ⟨⟨t1, m1⟩, h1, h⟩ := bind_ok h
    obtain ⟨⟨t2, m2⟩, h2, h⟩ := bind_ok h
    obtain ⟨e1, e2⟩ := rounds_calls seed ri ro n h
    have k1 := rounds_shaCalls h1
    have k2 := rounds_shaCalls h2
    simp only at e1 e2
    exact ⟨by omega, by omega⟩

theorem opt_calls (g : Nat → List Byte) (seed : List Byte) (ri ro zk : Bool) :
    ∀ (n : Nat) {p p' : Prf} {m m' : Hmac} {a : List Byte} {res r : Integer},
    optPhashLoop g seed ri ro zk n p m a res = .ok (r, p', m') → p'.calls = p.calls + 2 * n ∧ m'.shaCalls = m.shaCalls + 4 * n
  | 0, _, _, _, _, _, _, _, h => by cases h; exact ⟨rfl, rfl⟩
  | n + 1, p, p', m, m', a, res, r, h => by
    obtain ⟨⟨t1, m1⟩, h1, h⟩ := bind_ok h
    obtain ⟨⟨d, q⟩, hq, h⟩ := bind_ok h
    obtain ⟨⟨t2, m2⟩, h2, h⟩ := bind_ok h
    obtain ⟨e1, e2⟩ := opt_calls g seed ri ro zk n h
    have k1 := optHmac_shaCalls h1
    have k2 := optHmac_shaCalls h2
    have kq : q.calls = p.calls + 1 := by
      cases zk with
      | false => cases hq; rfl
      | true =>
        simp only [Bool.not_true, Bool.false_eq_true, if_false] at hq
        split at hq
        · cases hq; rfl
        · cases hq
    simp only at e1 e2
    exact ⟨by omega, by omega⟩

theorem step_count {p p' : Prf} {m m' : Hmac} {op : PrfOp} {o} (h : p.step m op = .ok (o, p', m')) :
    (p'.calls, m'.shaCalls) = count (p.calls, m.shaCalls) op := by
  cases op with
  | init k =>
    obtain ⟨⟨q, n⟩, h1, h⟩ := bind_ok h
    obtain ⟨n', h2, h1⟩ := bind_ok h1
    cases h1; cases h
    rw [init_shaCalls h2]; rfl
  | compute b l s =>
    obtain ⟨⟨r, q, n⟩, h1, h⟩ := bind_ok h
    obtain ⟨⟨r', q', n'⟩, h2, h1⟩ := bind_ok h1
    cases h1; cases h
    obtain ⟨e1, e2⟩ := phash_calls _ _ h2
    rw [e1, e2]; rfl
  | optCompute g b l s ri ro =>
    obtain ⟨⟨r, q, n⟩, h1, h⟩ := bind_ok h
    obtain ⟨⟨r', q', n'⟩, h2, h1⟩ := bind_ok h1
    cases h1; cases h
    obtain ⟨e1, e2⟩ := opt_calls _ _ _ _ _ _ h2
    rw [e1, e2]; rfl
  | optRounds b l s ri ro =>
    obtain ⟨⟨r, q, n⟩, h1, h⟩ := bind_ok h
    obtain ⟨⟨r', q', n'⟩, h2, h1⟩ := bind_ok h1
    cases h1; cases h
    obtain ⟨e1, e2⟩ := rounds_calls _ _ _ _ h2
    rw [e1, e2]; rfl

/-- **C98**.  After every sequence of calls that ends, `hmac_calls()` and `SHA256_call` say how many HMACs and digests there were
since the last `init`. -/
theorem C98_calls (ops : List PrfOp) {p p' : Prf} {m m' : Hmac} {os} (h : p.run m ops = .ok (os, p', m')) :
    (p'.calls, m'.shaCalls) = ops.foldl count (p.calls, m.shaCalls) := by
  induction ops generalizing p m os with
  | nil => cases h; rfl
  | cons op ops ih =>
    obtain ⟨⟨o, q, n⟩, h1, h⟩ := bind_ok h
    obtain ⟨⟨os', q', n'⟩, h2, h⟩ := bind_ok h
    cases h
    rw [List.foldl_cons, ← step_count h1]
    exact ih h2

/-! ### Compressions -/

theorem update_calls {s s' : Sha} {x : Integer} {ro : Bool} {d} (h : s.update x ro = .ok (d, s')) :
    s'.calls + (if ro && s.gcOut then 1 else 0) = s.calls + x.length / 512 ∧
    s'.gcOut = (s.gcOut || ro) ∧ s'.gcIn = s.gcIn ∧ s'.zkIn = s.zkIn := by
  unfold Sha.update at h
  dsimp only at h
  split at h
  · cases h
  obtain ⟨data, _, h⟩ := bind_ok h
  split at h
  · cases h
  rename_i hn
  cases ro with
  | false => cases h; simp; omega
  | true =>
    cases hg : s.gcOut with
    | false => simp only [hg] at h; cases h; simp; omega
    | true => simp only [hg] at h; cases h; simp [hg]; omega

/-- The kind of inner state that is stored: opened while deriving, authenticated while proving. -/
def stored (s : Sha) (zk : Bool) : Bool := if zk then s.zkIn else s.gcIn

theorem optFirst_calls {s s' : Sha} {x : Integer} {ri zk : Bool} {d} (h : s.optFirst x ri zk = .ok (d, s')) :
    s'.calls = s.calls + (if ri && stored s zk then 0 else 1) ∧ s'.gcOut = s.gcOut ∧ stored s' zk = (stored s zk || ri) := by
  unfold Sha.optFirst at h
  dsimp only at h
  split at h
  · cases h
  obtain ⟨data, _, h⟩ := bind_ok h
  cases ri with
  | false => cases h; cases zk <;> simp [stored]
  | true =>
    cases zk with
    | false =>
      cases hg : s.gcIn with
      | false => simp only [hg] at h; cases h; simp [stored, hg]
      | true =>
        simp only [hg] at h
        simp only [Bool.not_false, Bool.not_true, if_true, Bool.false_eq_true, if_false] at h
        split at h
        · cases h; simp [stored, hg]
        · cases h
    | true =>
      cases hg : s.zkIn with
      | false =>
        simp only [hg, Bool.not_false, Bool.not_true, if_true, Bool.false_eq_true, if_false] at h
        split at h
        · cases h; simp [stored, hg]
        · cases h
      | true =>
        simp only [hg, Bool.not_true, if_true, Bool.false_eq_true, if_false] at h
        split at h
        · cases h; simp [stored, hg]
        · cases h

theorem length_plainTail (g : List Byte) (d : List (BitVec 32)) (x : List Byte) : (plainTail g d x).length = 8 := rfl

theorem concat_words (x : Integer) (l : List (BitVec 32)) :
    (concat x (l.map fun d => ofNat 32 d.toNat)).length = x.length + 32 * l.length := by
  induction l generalizing x with
  | nil => rfl
  | cons d l ih =>
    rw [List.map_cons, concat, List.foldl_cons, ← concat, ih]
    simp only [List.length_append, Verif.Lemmas.length_ofNat, List.length_cons]
    omega

/-- One `opt_hmac_sha256`: the inner state if it is not stored, and the outer digest of two blocks, the first of which may be stored. -/
theorem optHmac_calls {m m' : Hmac} {g x : List Byte} {ri ro zk : Bool} {r} (ho : m.oKeyPad.length = 512)
    (h : m.optHmac g x ri ro zk = .ok (r, m')) :
    m'.sha.calls + (if ro && m.sha.gcOut then 1 else 0) = m.sha.calls + (if ri && stored m.sha zk then 0 else 1) + 2 ∧
    m'.sha.gcOut = (m.sha.gcOut || ro) ∧ stored m'.sha zk = (stored m.sha zk || ri) ∧ m'.oKeyPad.length = 512 := by
  obtain ⟨⟨d, s1⟩, h1, h⟩ := bind_ok h
  obtain ⟨⟨d2, s2⟩, h2, h⟩ := bind_ok h
  cases h
  obtain ⟨⟨d0, s0⟩, h0, h1⟩ := bind_ok h1
  cases h1
  obtain ⟨a1, a2, a3⟩ := optFirst_calls h0
  obtain ⟨b1, b2, b3, b4⟩ := update_calls h2
  have hl : (padding (concat m.oKeyPad ((plainTail g d0 x).map fun d => ofNat 32 d.toNat))).length / 512 = 2 := by
    have e : (concat m.oKeyPad ((plainTail g d0 x).map fun d => ofNat 32 d.toNat)).length = 768 := by
      rw [concat_words, ho, length_plainTail]
    rw [Verif.Lemmas.length_padding _ (by rw [e]; decide), e]
  rw [hl, a1, a2] at b1
  refine ⟨b1, by rw [b2, a2], ?_, ho⟩
  rw [← a3]
  cases zk
  · exact b3
  · exact b4

theorem reuse_loop (g : Nat → List Byte) (seed : List Byte) (zk : Bool) :
    ∀ (n : Nat) {p p' : Prf} {m m' : Hmac} {a : List Byte} {res r : Integer}, m.oKeyPad.length = 512 →
    optPhashLoop g seed true true zk n p m a res = .ok (r, p', m') → m'.oKeyPad.length = 512 ∧
      (n = 0 ∧ m' = m ∨ n ≠ 0 ∧ m'.sha.gcOut = true ∧ stored m'.sha zk = true ∧ m'.sha.calls = m.sha.calls + 2 * n
        + (if m.sha.gcOut then 0 else 1) + (if stored m.sha zk then 0 else 1))
  | 0, _, _, _, _, _, _, _, ho, h => by cases h; exact ⟨ho, .inl ⟨rfl, rfl⟩⟩
  | n + 1, p, p', m, m', a, res, r, ho, h => by
    obtain ⟨⟨t1, m1⟩, h1, h⟩ := bind_ok h
    obtain ⟨⟨d, q⟩, hq, h⟩ := bind_ok h
    obtain ⟨⟨t2, m2⟩, h2, h⟩ := bind_ok h
    obtain ⟨a1, a2, a3, o1⟩ := optHmac_calls ho h1
    obtain ⟨b1, b2, b3, o2⟩ := optHmac_calls o1 h2
    obtain ⟨o3, ih⟩ := reuse_loop g seed zk n o2 h
    refine ⟨o3, .inr ⟨by omega, ?_⟩⟩
    simp only [Bool.or_true] at a2 a3 b2 b3
    simp only [a2, a3, Bool.and_true, if_true] at b1
    simp only [Bool.true_and] at a1
    rcases ih with ⟨e, rfl⟩ | ⟨_, c1, c2, c3⟩
    · subst e
      refine ⟨b2, b3, ?_⟩
      split at a1 <;> split at a1 <;> simp_all
    · refine ⟨c1, c2, ?_⟩
      simp only [b2, b3, if_true] at c3
      split at a1 <;> split at a1 <;> simp_all <;> omega

theorem fresh_loop (g : Nat → List Byte) (seed : List Byte) (zk : Bool) :
    ∀ (n : Nat) {p p' : Prf} {m m' : Hmac} {a : List Byte} {res r : Integer}, m.oKeyPad.length = 512 →
    optPhashLoop g seed false false zk n p m a res = .ok (r, p', m') → m'.sha.calls = m.sha.calls + 6 * n
  | 0, _, _, _, _, _, _, _, ho, h => by cases h; rfl
  | n + 1, p, p', m, m', a, res, r, ho, h => by
    obtain ⟨⟨t1, m1⟩, h1, h⟩ := bind_ok h
    obtain ⟨⟨d, q⟩, hq, h⟩ := bind_ok h
    obtain ⟨⟨t2, m2⟩, h2, h⟩ := bind_ok h
    obtain ⟨a1, a2, a3, o1⟩ := optHmac_calls ho h1
    obtain ⟨b1, b2, b3, o2⟩ := optHmac_calls o1 h2
    have := fresh_loop g seed zk n o2 h
    simp only [Bool.false_and, Bool.false_eq_true, if_false] at a1 b1
    omega

/-- **C98**.  `compression_calls()` after `init` with any key and one `opt_compute`, deriving: with both kinds of reuse two compressions
for every block of output and two more, the inner and the outer state; without, six for every block. -/
theorem C98_compressions (m : Hmac) (hpos : m.sha.pos = BitVec.ofNat 64 m.sha.ivIn.length - 1) (key : Integer) (hk : key.length ≤ 512)
    (p : Prf) (g : Nat → List Byte) (bitlen : Nat) (label seed : List Byte) :
    ∃ m1, m.init key = .ok m1 ∧
    (∀ res r p' m', p.optCompute m1 g res bitlen label seed true true false = .ok (r, p', m') →
      m'.sha.calls = 2 * (bitlen / 256 + 1) + 2) ∧
    (∀ res r p' m', p.optCompute m1 g res bitlen label seed false false false = .ok (r, p', m') →
      m'.sha.calls = 6 * (bitlen / 256 + 1)) := by
  obtain ⟨m1, e, inv, -⟩ := Verif.Lemmas.init_step m hpos key (by omega)
  have hs : m1.sha = m.sha.refresh := by
    have e' := e
    obtain ⟨x, hx, e'⟩ := bind_ok e'
    rw [if_neg (by omega)] at hx
    cases hx; cases e'; rfl
  refine ⟨m1, e, fun res r p' m' h => ?_, fun res r p' m' h => ?_⟩
  · obtain ⟨⟨r1, p1, m2⟩, h1, h⟩ := bind_ok h
    cases h
    rcases (reuse_loop _ _ _ _ inv.olen h1).2 with ⟨e0, -⟩ | ⟨-, -, -, e1⟩
    · simp [prfBlocks] at e0
    · rw [e1, hs]
      simp [Sha.refresh, stored, prfBlocks]
  · obtain ⟨⟨r1, p1, m2⟩, h1, h⟩ := bind_ok h
    cases h
    rw [fresh_loop _ _ _ _ inv.olen h1, hs]
    simp [Sha.refresh, prfBlocks]

theorem reuse_run (cs : List ((Nat → List Byte) × Nat × List Byte × List Byte)) : ∀ {p p' : Prf} {m m' : Hmac} {os},
    m.oKeyPad.length = 512 → m.sha.gcOut = true → stored m.sha false = true →
    p.run m (cs.map fun c => .optCompute c.1 c.2.1 c.2.2.1 c.2.2.2 true true) = .ok (os, p', m') →
    m'.sha.calls = m.sha.calls + (cs.map fun c => 2 * (c.2.1 / 256 + 1)).sum := by
  induction cs with
  | nil => intro p p' m m' os _ _ _ h; cases h; rfl
  | cons c cs ih =>
    intro p p' m m' os ho hg hs h
    obtain ⟨⟨o, q, n⟩, h1, h⟩ := bind_ok h
    obtain ⟨⟨os', q', n'⟩, h2, h⟩ := bind_ok h
    cases h
    obtain ⟨⟨r, q1, n1⟩, h1, h3⟩ := bind_ok h1
    cases h3
    obtain ⟨⟨r1, q1, n1⟩, h1, h3⟩ := bind_ok h1
    cases h3
    obtain ⟨o1, e⟩ := reuse_loop _ _ _ _ ho h1
    rcases e with ⟨e0, -⟩ | ⟨-, g1, s1, e1⟩
    · simp [prfBlocks] at e0
    · rw [ih o1 g1 s1 h2, e1, hg, hs, List.map_cons, List.sum_cons]
      simp only [if_true, prfBlocks]
      omega

/-- **C98**.  Many derivations from one secret, with both kinds of reuse, all of which end: the two states are computed once, by the
first of them. -/
theorem C98_sequence (key : Integer) (hk : key.length ≤ 512)
    (c : (Nat → List Byte) × Nat × List Byte × List Byte) (cs : List ((Nat → List Byte) × Nat × List Byte × List Byte))
    (hg : ∀ c' ∈ c :: cs, (∀ i, (c'.1 i).length = 64) ∧ c'.2.2.1.length + c'.2.2.2.length < 2 ^ 58)
    (hl : ((c :: cs).map fun c => 2 * (c.2.1 / 256 + 1)).sum ≤ 2 ^ 64) :
    ∃ os p' m', Prf.new.run Hmac.new
        (.init key :: (c :: cs).map fun c => .optCompute c.1 c.2.1 c.2.2.1 c.2.2.2 true true) = .ok (os, p', m') ∧
      m'.sha.calls = ((c :: cs).map fun c => 2 * (c.2.1 / 256 + 1)).sum + 2 := by
  have hc : ∀ (l : List ((Nat → List Byte) × Nat × List Byte × List Byte)) (i : Option Bool), i ≠ some true →
      PrfNoMix i (l.map fun c => .optCompute c.1 c.2.1 c.2.2.1 c.2.2.2 true true) := by
    intro l
    induction l with
    | nil => intro i _; trivial
    | cons a l ih => intro i hi; exact ⟨fun _ => hi, ih _ (by simp)⟩
  obtain ⟨p', m', e⟩ := C14_history key ((c :: cs).map fun c => .optCompute c.1 c.2.1 c.2.2.1 c.2.2.2 true true) (by omega)
    (hc _ _ (by simp))
    (by intro op hop; obtain ⟨a, ha, rfl⟩ := List.mem_map.1 hop; exact hg a ha)
    (by rw [List.map_map]; exact hl)
  generalize none :: _ = os at e
  refine ⟨os, p', m', e, ?_⟩
  obtain ⟨m1, e1, inv, -⟩ := Verif.Lemmas.init_step Hmac.new Verif.Lemmas.ShaInv.new.pos key (by omega)
  have hs : m1.sha = Hmac.new.sha.refresh := by
    have e' := e1
    obtain ⟨x, hx, e'⟩ := bind_ok e'
    rw [if_neg (by omega)] at hx
    cases hx; cases e'; rfl
  obtain ⟨⟨o, q, n⟩, h1, h⟩ := bind_ok e
  obtain ⟨⟨os0, q0, n0⟩, hr, h⟩ := bind_ok h
  cases h
  obtain ⟨⟨q0, n0⟩, h1, h3⟩ := bind_ok h1
  cases h3
  obtain ⟨m2, h1, h3⟩ := bind_ok h1
  cases h3
  rw [e1] at h1
  cases h1
  obtain ⟨⟨o, q, n⟩, h1, h⟩ := bind_ok hr
  obtain ⟨⟨os', q', n'⟩, h2, h⟩ := bind_ok h
  cases h
  obtain ⟨⟨r, q1, n1⟩, h1, h3⟩ := bind_ok h1
  cases h3
  obtain ⟨⟨r1, q1, n1⟩, h1, h3⟩ := bind_ok h1
  cases h3
  obtain ⟨o1, e⟩ := reuse_loop _ _ _ _ inv.olen h1
  rcases e with ⟨e0, -⟩ | ⟨-, g1, s1, e1⟩
  · simp [prfBlocks] at e0
  · rw [reuse_run cs o1 g1 s1 h2, e1, hs, List.map_cons, List.sum_cons]
    simp [Sha.refresh, stored, prfBlocks]
    omega

/-- The master secret, from a premaster secret of 256 bits: 384 bits, six compressions. -/
example : ∃ os p' m', Prf.new.run Hmac.new [.init (List.replicate 256 true),
      .optCompute (fun _ => List.replicate 64 0) 384 [1] [2, 3] true true] = .ok (os, p', m') ∧ m'.sha.calls = 6 ∧
      (p'.calls, m'.shaCalls) = (4, 8) := by
  obtain ⟨os, p', m', h, e⟩ := C98_sequence (List.replicate 256 true) (by simp [-List.reduceReplicate])
    (fun _ => List.replicate 64 0, 384, [1], [2, 3]) [] (by simp [-List.reduceReplicate]) (by simp)
  exact ⟨os, p', m', h, e, (C98_calls _ h).trans (by simp [-List.reduceReplicate, count])⟩

/-- The five keys and the two checks from one master secret: four blocks of output. -/
example : ((((fun _ => List.replicate 64 0, 320, [1], [2, 3]) :: [(fun _ => List.replicate 64 0, 96, [1], [4]),
      (fun _ => List.replicate 64 0, 96, [2], [4])] : List ((Nat → List Byte) × Nat × List Byte × List Byte)).map
        fun c => 2 * (c.2.1 / 256 + 1)).sum + 2) = 10 := by rfl

/-! ### Compressions of the other two functions -/

/-- Blocks of a padded message of `x` bits. -/
def blocks (x : Nat) : Nat := (x + 64) / 512 + 1

theorem rounds_update_calls {s s' : Sha} {x : Integer} {ri : Bool} {d} (h : s.optRoundsUpdate x ri = .ok (d, s')) :
    s'.calls + (if ri && s.gcIn then 1 else 0) = s.calls + x.length / 512 ∧ s'.gcIn = (s.gcIn || ri) ∧ s'.gcOut = s.gcOut := by
  unfold Sha.optRoundsUpdate at h
  dsimp only at h
  split at h
  · cases h
  obtain ⟨data, _, h⟩ := bind_ok h
  split at h
  · cases h
  rename_i hn
  cases ri with
  | false => cases h; simp; omega
  | true =>
    cases hg : s.gcIn with
    | false => simp only [hg] at h; cases h; simp; omega
    | true => simp only [hg] at h; cases h; simp [hg]; omega

theorem length_dig8 {d : List Integer} (h : Verif.Lemmas.Dig8 d) (x : Integer) : (concat x d).length = x.length + 256 := by
  have e : (concat x d).length = x.length + (concat [] d).length := by
    rw [← List.length_reverse, ← List.length_reverse (as := concat [] d), Verif.Lemmas.concat_reverse, Verif.Lemmas.concat_reverse]
    simp
  have e2 : (concat [] d).length = 256 := by
    have := Verif.Lemmas.secBits_eq d h
    rw [← List.length_reverse]
    show (secBits d).length = 256
    rw [this, Verif.Lemmas.length_flatMap_wordBits, List.length_map, h.2]
  omega

theorem roundsHmac_calls {m : Hmac} {key inn} (h : Verif.Lemmas.HmacInv m key inn) (msg : Integer) (hm : msg.length < 2 ^ 62)
    (r : Bool) (hc : r = true → inn ≠ some false) :
    ∃ d m', m.optRoundsHmac msg r r = .ok (d, m') ∧ (concat [] d).length = 256 ∧
      Verif.Lemmas.HmacInv m' key (if r then some true else inn) ∧
      m'.sha.calls + (if r && m.sha.gcIn then 1 else 0) + (if r && m.sha.gcOut then 1 else 0)
        = m.sha.calls + blocks (512 + msg.length) + 2 ∧
      m'.sha.gcIn = (m.sha.gcIn || r) ∧ m'.sha.gcOut = (m.sha.gcOut || r) := by
  obtain ⟨d, m', e, d8, -, inv', -⟩ := Verif.Lemmas.roundsHmac_step h msg hm r r hc
  refine ⟨d, m', e, by rw [length_dig8 d8]; rfl, inv', ?_⟩
  have hi : (concat m.iKeyPad [msg]).reverse = Verif.Lemmas.iBlock key ++ msg.reverse := by
    rw [Verif.Lemmas.concat_reverse, h.ipad]; simp
  have hil : (concat m.iKeyPad [msg]).length = 512 + msg.length := by
    rw [← List.length_reverse, hi, List.length_append, Verif.Lemmas.length_iBlock, List.length_reverse]
  obtain ⟨o, inv, ho⟩ := h.sha
  obtain ⟨dig, s1, e1, a1, b1, c1, f1⟩ := Verif.Lemmas.rounds_step inv (concat m.iKeyPad [msg])
    (by omega) r (by
    intro hr k b hb
    rw [hi, Verif.Lemmas.block0_eq _ _ (Verif.Lemmas.length_iBlock key)]
    cases inn with
    | none => simp at hb
    | some k' =>
      simp only [Option.map_some, Option.some.injEq, Prod.mk.injEq] at hb
      obtain ⟨rfl, rfl⟩ := hb
      refine ⟨?_, rfl⟩
      have := hc hr
      cases k' <;> simp_all)
  obtain ⟨⟨d1, s⟩, g1, e⟩ := bind_ok e
  obtain ⟨⟨d2, s2⟩, g2, e⟩ := bind_ok e
  cases e
  rw [e1] at g1
  cases g1
  obtain ⟨x1, x2, x3⟩ := rounds_update_calls e1
  obtain ⟨y1, y2, y3, -⟩ := update_calls g2
  have ol : (concat m.oKeyPad dig).length = 768 := by rw [length_dig8 a1, h.olen]
  rw [Verif.Lemmas.length_padding _ (by omega), hil] at x1
  rw [Verif.Lemmas.length_padding _ (by rw [ol]; decide), ol] at y1
  rw [x3] at y1 y2
  refine ⟨?_, by rw [y3, x2], y2⟩
  show s2.calls + _ + _ = _
  unfold blocks
  rw [Nat.mul_div_cancel_left _ (by decide)] at x1
  omega

theorem rounds_loop (key : List Bool) (seed : Integer) (hs : seed.length < 2 ^ 61) (r : Bool) :
    ∀ (n : Nat) (inn : Option Bool) (p : Prf) (m : Hmac) (a res : Integer), Verif.Lemmas.HmacInv m key inn →
    (r = true → inn ≠ some false) → a.length < 2 ^ 62 →
    ∃ t p' m', roundsPhashLoop seed r r (n + 1) p m a res = .ok (t, p', m') ∧
      m'.sha.calls + (if r then 4 * (n + 1) else 0) = m.sha.calls + (blocks (512 + a.length) + 2) + 4 * n
        + (n + 1) * (blocks (768 + seed.length) + 2)
        + (if r && !m.sha.gcIn then 1 else 0) + (if r && !m.sha.gcOut then 1 else 0) := by
  intro n
  induction n with
  | zero =>
    intro inn p m a res h hc ha
    obtain ⟨d1, m1, e1, l1, i1, c1, x1, y1⟩ := roundsHmac_calls h a ha r hc
    have hl : (concat (concat [] [concat [] d1]) [seed]).length = 256 + seed.length := by
      rw [← List.length_reverse, Verif.Lemmas.concat_reverse, Verif.Lemmas.concat_reverse]
      simp only [List.reverse_nil, List.map_cons, List.map_nil, List.flatten_cons, List.flatten_nil, List.append_nil,
        List.nil_append, List.length_append, List.length_reverse, l1]
    obtain ⟨d2, m2, e2, l2, i2, c2, x2, y2⟩ := roundsHmac_calls i1 (concat (concat [] [concat [] d1]) [seed])
      (by omega) r (by cases r <;> simp_all)
    refine ⟨concat res d2, { p with calls := p.calls + 2 }, m2, ?_, ?_⟩
    · simp only [roundsPhashLoop, bind, Except.bind, e1, e2]
    · rw [hl, x1, y1, show 512 + (256 + seed.length) = 768 + seed.length by omega] at c2
      cases r <;> cases hx : m.sha.gcIn <;> cases hy : m.sha.gcOut <;> simp [hx, hy] at c1 c2 ⊢ <;> omega
  | succ n ih =>
    intro inn p m a res h hc ha
    obtain ⟨d1, m1, e1, l1, i1, c1, x1, y1⟩ := roundsHmac_calls h a ha r hc
    have hl : (concat (concat [] [concat [] d1]) [seed]).length = 256 + seed.length := by
      rw [← List.length_reverse, Verif.Lemmas.concat_reverse, Verif.Lemmas.concat_reverse]
      simp only [List.reverse_nil, List.map_cons, List.map_nil, List.flatten_cons, List.flatten_nil, List.append_nil,
        List.nil_append, List.length_append, List.length_reverse, l1]
    obtain ⟨d2, m2, e2, l2, i2, c2, x2, y2⟩ := roundsHmac_calls i1 (concat (concat [] [concat [] d1]) [seed])
      (by omega) r (by cases r <;> simp_all)
    obtain ⟨t, p', m', e, c3⟩ := ih _ { p with calls := p.calls + 2 } m2 (concat [] d1) (concat res d2) i2
      (by cases r <;> simp_all) (by omega)
    refine ⟨t, p', m', ?_, ?_⟩
    · rw [roundsPhashLoop]
      simp only [bind, Except.bind, e1, e2, e]
    · rw [hl, x1, y1, show 512 + (256 + seed.length) = 768 + seed.length by omega] at c2
      rw [l1, x2, y2, x1, y1, show blocks (512 + 256) = 2 from rfl] at c3
      rw [Nat.succ_mul (n + 1)]
      generalize (n + 1) * (blocks (768 + seed.length) + 2) = z at *
      cases r <;> cases hx : m.sha.gcIn <;> cases hy : m.sha.gcOut <;> simp [hx, hy] at c1 c2 c3 ⊢ <;> omega

/-- **C98**.  `compression_calls()` after `init` with any key of at most 512 bits and one `opt_rounds_compute` that makes `n + 1` blocks
from a label and a seed of `L` bits together.  Its HMACs are wholly inside the circuit, so the seed is paid for once in every block of
output; reuse saves two compressions for every HMAC but the first. -/
theorem C98_rounds (m : Hmac) (hpos : m.sha.pos = BitVec.ofNat 64 m.sha.ivIn.length - 1) (key : Integer) (hk : key.length ≤ 512)
    (p : Prf) (bitlen : Nat) (label seed : List Byte) (hs : label.length + seed.length < 2 ^ 58) (r : Bool) (out : Integer) :
    ∃ m1 t p' m', m.init key = .ok m1 ∧ p.optRoundsCompute m1 out bitlen label seed r r = .ok (t, p', m') ∧
      m'.sha.calls + (if r then 4 * (bitlen / 256) + 2 else 0) =
        (blocks (512 + 8 * (label.length + seed.length)) + 2) + 4 * (bitlen / 256)
        + (bitlen / 256 + 1) * (blocks (768 + 8 * (label.length + seed.length)) + 2) := by
  obtain ⟨m1, e, inv, -⟩ := Verif.Lemmas.init_step m hpos key (by omega)
  have hsh : m1.sha = m.sha.refresh := by
    have e' := e
    obtain ⟨x, hx, e'⟩ := bind_ok e'
    rw [if_neg (by omega)] at hx
    cases hx; cases e'; rfl
  have hl : (ofBytes (label ++ seed).reverse).length = 8 * (label.length + seed.length) := by
    rw [Verif.Lemmas.length_ofBytes, List.length_reverse, List.length_append]
  obtain ⟨t, p', m', e2, c⟩ := rounds_loop key.reverse (ofBytes (label ++ seed).reverse) (by omega) r (bitlen / 256) none p m1
    (ofBytes (label ++ seed).reverse) out inv (by simp) (by omega)
  refine ⟨m1, prfTrunc t bitlen, p', m', e, ?_, ?_⟩
  · have : prfBlocks bitlen = bitlen / 256 + 1 := rfl
    simp only [Prf.optRoundsCompute, Prf.optRoundsPhash, bind, Except.bind, this, e2]
  · rw [hl, hsh] at c
    generalize (bitlen / 256 + 1) * (blocks (768 + 8 * (label.length + seed.length)) + 2) = z at *
    cases r <;> simp [Sha.refresh] at c ⊢ <;> omega

/-- Keys of the records, 320 bits from 13 + 64 bytes: 19 compressions, 13 with reuse; `opt_compute` needs six. -/
example (r : Bool) : ∃ m1 t p' m', Hmac.new.init (List.replicate 384 true) = .ok m1 ∧
    Prf.new.optRoundsCompute m1 [] 320 (List.replicate 13 1) (List.replicate 64 2) r r = .ok (t, p', m') ∧
    m'.sha.calls = if r then 13 else 19 := by
  obtain ⟨m1, t, p', m', h1, h2, h3⟩ := C98_rounds Hmac.new Verif.Lemmas.ShaInv.new.pos (List.replicate 384 true)
    (by simp [-List.reduceReplicate]) Prf.new 320 (List.replicate 13 1) (List.replicate 64 2) (by simp [-List.reduceReplicate]) r []
  refine ⟨m1, t, p', m', h1, h2, ?_⟩
  cases r <;> simp [-List.reduceReplicate, blocks] at h3 ⊢ <;> omega

theorem hmac_comp {m : Hmac} {key inn} (h : Verif.Lemmas.HmacInv m key inn) (msg : Integer) (hm : msg.length < 2 ^ 62) :
    ∃ d m', m.hmac msg = .ok (d, m') ∧ (concat [] d).length = 256 ∧ Verif.Lemmas.HmacInv m' key inn ∧
      m'.sha.calls = m.sha.calls + blocks (512 + msg.length) + 2 := by
  obtain ⟨d, m', e, d8, -, inv', -⟩ := Verif.Lemmas.hmac_step h msg hm
  refine ⟨d, m', e, by rw [length_dig8 d8]; rfl, inv', ?_⟩
  have hi : (concat m.iKeyPad [msg]).reverse = Verif.Lemmas.iBlock key ++ msg.reverse := by
    rw [Verif.Lemmas.concat_reverse, h.ipad]; simp
  have hil : (concat m.iKeyPad [msg]).length = 512 + msg.length := by
    rw [← List.length_reverse, hi, List.length_append, Verif.Lemmas.length_iBlock, List.length_reverse]
  obtain ⟨o, inv, ho⟩ := h.sha
  obtain ⟨dig, s1, e1, a1, b1, c1, f1⟩ := Verif.Lemmas.digest_step inv (concat m.iKeyPad [msg]) (by omega) false (by simp)
  obtain ⟨⟨d1, s⟩, g1, e⟩ := bind_ok e
  obtain ⟨⟨d2, s2⟩, g2, e⟩ := bind_ok e
  cases e
  rw [e1] at g1
  cases g1
  obtain ⟨x1, -⟩ := update_calls e1
  obtain ⟨y1, -⟩ := update_calls g2
  have ol : (concat m.oKeyPad dig).length = 768 := by rw [length_dig8 a1, h.olen]
  rw [Verif.Lemmas.length_padding _ (by omega), hil] at x1
  rw [Verif.Lemmas.length_padding _ (by rw [ol]; decide), ol] at y1
  show s2.calls = _
  unfold blocks
  rw [Nat.mul_div_cancel_left _ (by decide)] at x1
  simp only [Bool.false_and, Bool.false_eq_true, if_false] at x1 y1
  omega

theorem phash_loop (key : List Bool) (seed : Integer) (hs : seed.length < 2 ^ 61) (inn : Option Bool) :
    ∀ (n : Nat) (p : Prf) (m : Hmac) (a res : Integer), Verif.Lemmas.HmacInv m key inn → a.length < 2 ^ 62 →
    ∃ t p' m', phashLoop seed (n + 1) p m a res = .ok (t, p', m') ∧
      m'.sha.calls = m.sha.calls + (blocks (512 + a.length) + 2) + 4 * n + (n + 1) * (blocks (768 + seed.length) + 2) := by
  intro n
  induction n with
  | zero =>
    intro p m a res h ha
    obtain ⟨d1, m1, e1, l1, i1, c1⟩ := hmac_comp h a ha
    have hl : (concat (concat [] [concat [] d1]) [seed]).length = 256 + seed.length := by
      rw [← List.length_reverse, Verif.Lemmas.concat_reverse, Verif.Lemmas.concat_reverse]
      simp only [List.reverse_nil, List.map_cons, List.map_nil, List.flatten_cons, List.flatten_nil, List.append_nil,
        List.nil_append, List.length_append, List.length_reverse, l1]
    obtain ⟨d2, m2, e2, l2, i2, c2⟩ := hmac_comp i1 (concat (concat [] [concat [] d1]) [seed]) (by omega)
    refine ⟨concat res d2, { p with calls := p.calls + 2 }, m2, ?_, ?_⟩
    · simp only [phashLoop, bind, Except.bind, e1, e2]
    · rw [hl, show 512 + (256 + seed.length) = 768 + seed.length by omega] at c2
      omega
  | succ n ih =>
    intro p m a res h ha
    obtain ⟨d1, m1, e1, l1, i1, c1⟩ := hmac_comp h a ha
    have hl : (concat (concat [] [concat [] d1]) [seed]).length = 256 + seed.length := by
      rw [← List.length_reverse, Verif.Lemmas.concat_reverse, Verif.Lemmas.concat_reverse]
      simp only [List.reverse_nil, List.map_cons, List.map_nil, List.flatten_cons, List.flatten_nil, List.append_nil,
        List.nil_append, List.length_append, List.length_reverse, l1]
    obtain ⟨d2, m2, e2, l2, i2, c2⟩ := hmac_comp i1 (concat (concat [] [concat [] d1]) [seed]) (by omega)
    obtain ⟨t, p', m', e, c3⟩ := ih { p with calls := p.calls + 2 } m2 (concat [] d1) (concat res d2) i2 (by omega)
    refine ⟨t, p', m', ?_, ?_⟩
    · rw [phashLoop]
      simp only [bind, Except.bind, e1, e2, e]
    · rw [hl, show 512 + (256 + seed.length) = 768 + seed.length by omega] at c2
      rw [l1, show blocks (512 + 256) = 2 from rfl] at c3
      rw [Nat.succ_mul (n + 1)]
      generalize (n + 1) * (blocks (768 + seed.length) + 2) = z at *
      omega

/-- **C98**.  The same for `compute`, which reuses nothing. -/
theorem C98_compute (m : Hmac) (hpos : m.sha.pos = BitVec.ofNat 64 m.sha.ivIn.length - 1) (key : Integer) (hk : key.length ≤ 512)
    (p : Prf) (bitlen : Nat) (label seed out : Integer) (hs : label.length + seed.length < 2 ^ 61) :
    ∃ m1 t p' m', m.init key = .ok m1 ∧ p.compute m1 out bitlen label seed = .ok (t, p', m') ∧
      m'.sha.calls = (blocks (512 + (label.length + seed.length)) + 2) + 4 * (bitlen / 256)
        + (bitlen / 256 + 1) * (blocks (768 + (label.length + seed.length)) + 2) := by
  obtain ⟨m1, e, inv, -⟩ := Verif.Lemmas.init_step m hpos key (by omega)
  have hsh : m1.sha = m.sha.refresh := by
    have e' := e
    obtain ⟨x, hx, e'⟩ := bind_ok e'
    rw [if_neg (by omega)] at hx
    cases hx; cases e'; rfl
  have hl : (concat (concat [] [label]) [seed]).length = label.length + seed.length := by
    rw [← List.length_reverse, Verif.Lemmas.concat_reverse, Verif.Lemmas.concat_reverse]
    simp
  obtain ⟨t, p', m', e2, c⟩ := phash_loop key.reverse (concat (concat [] [label]) [seed]) (by omega) none (bitlen / 256) p m1
    (concat (concat [] [label]) [seed]) out inv (by omega)
  refine ⟨m1, prfTrunc t bitlen, p', m', e, ?_, ?_⟩
  · have : prfBlocks bitlen = bitlen / 256 + 1 := rfl
    simp only [Prf.compute, Prf.phash, bind, Except.bind, this, e2]
  · rw [hl, hsh] at c
    rw [c]
    simp [Sha.refresh]

example : ∃ m1 t p' m', Hmac.new.init (List.replicate 384 true) = .ok m1 ∧
    Prf.new.compute m1 [] 96 (List.replicate 120 true) (List.replicate 256 false) = .ok (t, p', m') ∧ m'.sha.calls = 9 := by
  obtain ⟨m1, t, p', m', h1, h2, h3⟩ := C98_compute Hmac.new Verif.Lemmas.ShaInv.new.pos (List.replicate 384 true)
    (by simp [-List.reduceReplicate]) Prf.new 96 (List.replicate 120 true) (List.replicate 256 false) [] (by simp [-List.reduceReplicate])
  exact ⟨m1, t, p', m', h1, h2, by simpa [-List.reduceReplicate, blocks] using h3⟩

end Verif.Props.Counters
