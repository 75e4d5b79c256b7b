import Verif.Model.OLECheat
import Verif.Props.E2FView
import Verif.Props.HandshakeProof

/-! C77: a party of the oblivious linear evaluation that does not follow the protocol. -/

namespace Verif.Props.OLECheat
open Verif.Model Verif.Model.OLE Verif.Model.E2F Verif.Props Verif.Lemmas

/-- The sum over `j < n` of `2^j` times the error of message `j`, for the bits set in `y`. -/
def errSum (n : Nat) (y : Nat) (e : Nat → Int) : Int :=
  sumOver (fun j => if y.testBit j then 2 ^ j * e j else 0) (List.range n)

theorem recvLoop_any (h : Block → Int) (q : Int) (c : Nat → Bool) (B : Nat × Nat → Block) : ∀ (l : List (Nat × Nat)) (ms rest : List Int) (o : Int),
    ms.length = l.length → ∃ o', recvLoop h q (l.map fun p => (p.1, c p.1, B p)) (ms ++ rest) o = .ok (o', rest)
      ∧ o' ≡ o + (List.zipWith (fun p m => 2 ^ p.1 * (if c p.1 then m - h (B p) else h (B p))) l ms).sum [ZMOD q] := by
  intro l
  induction l with
  | nil =>
    intro ms rest o hl
    have : ms = [] := List.length_eq_zero_iff.mp hl
    subst this
    exact ⟨o, rfl, by simp⟩
  | cons p l ih =>
    intro ms rest o hl
    cases ms with
    | nil => simp at hl
    | cons m ms =>
      obtain ⟨o', e, r⟩ := ih ms rest ((o + exp q p.1 * (if c p.1 then m - h (B p) else h (B p)) % q) % q) (by simpa using hl)
      refine ⟨o', e, r.trans ?_⟩
      simp only [List.zipWith_cons_cons, List.sum_cons]
      have he : exp q p.1 ≡ 2 ^ p.1 [ZMOD q] := Int.mod_modEq _ _
      have h1 := (Int.mod_modEq (o + exp q p.1 * (if c p.1 then m - h (B p) else h (B p)) % q) q).trans
        ((Int.ModEq.refl o).add ((Int.mod_modEq _ _).trans (he.mul_right (if c p.1 then m - h (B p) else h (B p)))))
      refine (h1.add_right _).trans ?_
      rw [add_assoc]

theorem zip_range (F : Nat × Nat → Int → Int) (n i : Nat) (ms : List Int) (hl : ms.length = n) :
    (List.zipWith F (slice n i) ms).sum = sumOver (fun j => F (j, i * n + j) (ms.getD j 0)) (List.range n) := by
  unfold sumOver
  congr 1
  apply List.ext_getElem
  · simp [slice, hl]
  · intro k h1 h2
    have hk : k < ms.length := by simp [slice] at h1; omega
    simp [slice, List.getD_eq_getElem?_getD, hk]

theorem sumOver_sub (f g : Nat → Int) (l : List Nat) : sumOver f l - sumOver g l = sumOver (fun j => f j - g j) l := by
  unfold sumOver
  induction l with
  | nil => simp
  | cons a l ih => simp only [List.map_cons, List.sum_cons, ← ih]; ring

theorem sumOver_congr (f g : Nat → Int) (l : List Nat) (h : ∀ j ∈ l, f j = g j) : sumOver f l = sumOver g l := by
  unfold sumOver
  rw [List.map_congr_left h]

/-- One element, two lists of messages. -/
theorem recvLoop_diff (h : Block → Int) (q : Int) (n i : Nat) (y : Nat) (M : Nat → Bool → Block) (ms hs rest rest' : List Int)
    (hm : ms.length = n) (hh : hs.length = n) :
    ∃ o o', recvLoop h q ((slice n i).map fun p => (p.1, bitsOf (Int.ofNat y) p.1, M p.2 (bitsOf (Int.ofNat y) p.1))) (hs ++ rest) 0 = .ok (o, rest)
      ∧ recvLoop h q ((slice n i).map fun p => (p.1, bitsOf (Int.ofNat y) p.1, M p.2 (bitsOf (Int.ofNat y) p.1))) (ms ++ rest') 0 = .ok (o', rest')
      ∧ o' ≡ o + errSum n y (fun j => ms.getD j 0 - hs.getD j 0) [ZMOD q] := by
  have hs1 : (slice n i).length = n := by simp [slice]
  obtain ⟨o, e, r⟩ := recvLoop_any h q (bitsOf (Int.ofNat y)) (fun p => M p.2 (bitsOf (Int.ofNat y) p.1)) (slice n i) hs rest 0 (by omega)
  obtain ⟨o', e', r'⟩ := recvLoop_any h q (bitsOf (Int.ofNat y)) (fun p => M p.2 (bitsOf (Int.ofNat y) p.1)) (slice n i) ms rest' 0 (by omega)
  refine ⟨o, o', e, e', ?_⟩
  rw [zip_range _ _ _ _ hh] at r
  rw [zip_range _ _ _ _ hm] at r'
  refine r'.trans (Int.ModEq.trans ?_ (r.symm.add_right _))
  rw [zero_add, zero_add]
  have : errSum n y (fun j => ms.getD j 0 - hs.getD j 0)
      = sumOver (fun j => 2 ^ j * (if bitsOf (Int.ofNat y) j then ms.getD j 0 - h (M (i * n + j) (bitsOf (Int.ofNat y) j)) else h (M (i * n + j) (bitsOf (Int.ofNat y) j)))) (List.range n)
        - sumOver (fun j => 2 ^ j * (if bitsOf (Int.ofNat y) j then hs.getD j 0 - h (M (i * n + j) (bitsOf (Int.ofNat y) j)) else h (M (i * n + j) (bitsOf (Int.ofNat y) j)))) (List.range n) := by
    rw [sumOver_sub]
    apply sumOver_congr
    intro j _
    have hb : bitsOf (Int.ofNat y) j = y.testBit j := rfl
    cases hy : y.testBit j <;> rw [hb, hy] <;> simp
    ring
  rw [this, add_sub_cancel]

theorem recv_any (h : Block → Int) (q : Int) (n : Nat) (M : Nat → Bool → Block) : ∀ (inr : List Nat) (i : Nat) (ms hs : List Int),
    ms.length = n * inr.length → hs.length = n * inr.length →
    ∃ o o', recv h q n M i (inr.map Int.ofNat) hs = .ok (o, []) ∧ recv h q n M i (inr.map Int.ofNat) ms = .ok (o', [])
      ∧ o.length = inr.length ∧ o'.length = inr.length
      ∧ ∀ (k : Nat) (y : Nat) (a b : Int), inr[k]? = some y → o[k]? = some a → o'[k]? = some b →
        b ≡ a + errSum n y (fun j => ms.getD (k * n + j) 0 - hs.getD (k * n + j) 0) [ZMOD q] := by
  intro inr
  induction inr with
  | nil =>
    intro i ms hs h1 h2
    have e1 : ms = [] := List.length_eq_zero_iff.mp (by simpa using h1)
    have e2 : hs = [] := List.length_eq_zero_iff.mp (by simpa using h2)
    subst e1 e2
    exact ⟨[], [], rfl, rfl, rfl, rfl, by simp⟩
  | cons y inr ih =>
    intro i ms hs h1 h2
    rw [List.length_cons, Nat.mul_succ] at h1 h2
    obtain ⟨o, o', e, e', l, l', r⟩ := ih (i + 1) (ms.drop n) (hs.drop n) (by simp; omega) (by simp; omega)
    obtain ⟨a, a', f, f', s⟩ := recvLoop_diff h q n i y M (ms.take n) (hs.take n) (hs.drop n) (ms.drop n) (by simp; omega) (by simp; omega)
    rw [List.take_append_drop] at f f'
    refine ⟨a :: o, a' :: o', ?_, ?_, by simp [l], by simp [l'], ?_⟩
    · simp only [List.map_cons, recv, f, e, bind, Except.bind]
    · simp only [List.map_cons, recv, f', e', bind, Except.bind]
    · intro k y' c d h3 h4 h5
      cases k with
      | zero =>
        simp only [List.getElem?_cons_zero, Option.some.injEq] at h3 h4 h5
        subst h3 h4 h5
        refine s.trans ?_
        have : errSum n y (fun j => (ms.take n).getD j 0 - (hs.take n).getD j 0) = errSum n y (fun j => ms.getD (0 * n + j) 0 - hs.getD (0 * n + j) 0) := by
          apply sumOver_congr
          intro j hj
          have hj : j < n := by simpa using hj
          simp [List.getD_eq_getElem?_getD, hj]
        rw [this]
      | succ k =>
        simp only [List.getElem?_cons_succ] at h3 h4 h5
        refine (r k y' c d h3 h4 h5).trans ?_
        have : errSum n y' (fun j => (ms.drop n).getD (k * n + j) 0 - (hs.drop n).getD (k * n + j) 0)
            = errSum n y' (fun j => ms.getD ((k + 1) * n + j) 0 - hs.getD ((k + 1) * n + j) 0) := by
          apply sumOver_congr
          intro j _
          have : n + (k * n + j) = (k + 1) * n + j := by ring
          simp [List.getD_eq_getElem?_getD, List.getElem?_drop, this]
        rw [this]

theorem sendLoop_length (h : Block → Int) (q : Int) (delta : Block) (x : Int) : ∀ (l : List (Nat × Block)) (o : Int),
    (sendLoop h q delta x l o).2.length = l.length := by
  intro l
  induction l with
  | nil => intro o; rfl
  | cons p l ih => intro o; simp [sendLoop, ih]

theorem send_length (h : Block → Int) (q : Int) (n : Nat) (delta : Block) (K : Nat → Block) : ∀ (ins : List Int) (i : Nat),
    (send h q n delta K i ins).2.length = n * ins.length := by
  intro ins
  induction ins with
  | nil => intro i; rfl
  | cons x ins ih =>
    intro i
    simp only [send, List.length_append, ih, sendLoop_length, List.length_map, List.length_cons]
    simp [slice]; ring

/-- **C77 (a cheating sender).**  Whatever messages the holder of the offset sends instead of its own, as long as there are as many: the receiver ends
without an error, and each of its outputs is the one of the product plus the sum of `2^j` times the error of message `j` over the bits set in its own input. -/
theorem C77_sender (cheat : List Int → List Int) (ccrh : Block → Block) (q : Int) (n : Nat) (delta : Block) (K : Nat → Block) (ins : List Int)
    (inr : List Nat) (hl : inr.length = ins.length) (hb : ∀ y ∈ inr, y < 2 ^ n) (hc : ∀ l, (cheat l).length = l.length) :
    let hs := (send (hashBn ccrh q) q n delta K 0 ins).2
    ∃ os or', computeSent cheat ccrh q n delta K ins (inr.map Int.ofNat) = .ok (os, or', [])
      ∧ os.length = ins.length ∧ or'.length = ins.length
      ∧ ∀ (k : Nat) (x a b : Int) (y : Nat), ins[k]? = some x → inr[k]? = some y → os[k]? = some a → or'[k]? = some b →
        (a + b) % q = (x * y + errSum n y (fun j => (cheat hs).getD (k * n + j) 0 - hs.getD (k * n + j) 0)) % q := by
  intro hs
  obtain ⟨o, e, l1, l2, r⟩ := ole_elements (hashBn ccrh q) q n delta K ins inr 0 hl hb
  have hlen : hs.length = n * inr.length := by rw [hl]; exact send_length _ _ _ _ _ _ _
  obtain ⟨o1, o2, e1, e2, m1, m2, s⟩ := recv_any (hashBn ccrh q) q n (fun k c => K k ^^^ (if c then delta else 0)) inr 0 (cheat hs) hs
    (by rw [hc, hlen]) hlen
  obtain ⟨rfl, -⟩ := Prod.mk.inj (Except.ok.inj (e.symm.trans e1))
  refine ⟨_, o2, ?_, l2, by omega, ?_⟩
  · simp only [computeSent]
    rw [show cheat (send (hashBn ccrh q) q n delta K 0 ins).2 = cheat hs from rfl, e2]
    rfl
  · intro k x a b y h1 h2 h3 h4
    obtain ⟨c, hc'⟩ : ∃ c, o[k]? = some c := by
      have : k < o.length := by
        have := (List.getElem?_eq_some_iff.1 h4).1
        omega
      exact ⟨_, List.getElem?_eq_getElem this⟩
    have t1 := r k x a c y h1 h2 h3 hc'
    have t2 := s k y c b h2 hc' h4
    have := (t2.add_left a).trans (show a + (c + _) ≡ x * y + _ [ZMOD q] from by rw [← add_assoc]; exact t1.add_right _)
    exact this

theorem errSum_single (n y j : Nat) (e : Int) (hj : j < n) :
    errSum n y (fun i => if i = j then e else 0) = if y.testBit j then 2 ^ j * e else 0 := by
  unfold errSum sumOver
  induction n with
  | zero => omega
  | succ n ih =>
    rw [List.range_succ, List.map_append, List.sum_append]
    simp only [List.map_cons, List.map_nil, List.sum_cons, List.sum_nil, add_zero]
    rcases Nat.lt_or_ge j n with h | h
    · rw [ih h, if_neg (by omega : n ≠ j)]; simp
    · have : j = n := by omega
      subst this
      have : ((List.range j).map fun i => if y.testBit i then 2 ^ i * (if i = j then e else 0) else 0) = (List.range j).map fun _ => (0 : Int) := by
        apply List.map_congr_left
        intro i hi
        have : i ≠ j := by have : i < j := by simpa using hi
                           omega
        simp [this]
      rw [this]
      simp

theorem addAt_getD (k : Nat) (e : Int) (ms : List Int) (i : Nat) (hk : k < ms.length) :
    (addAt k e ms).getD i 0 - ms.getD i 0 = if i = k then e else 0 := by
  unfold addAt
  rw [List.getD_eq_getElem?_getD, List.getD_eq_getElem?_getD, List.getElem?_modify]
  by_cases h : i = k
  · subst h
    simp [hk]
  · have h' : ¬ k = i := fun h' => h h'.symm
    simp [h, h']

/-- The error of one changed message, for every element. -/
theorem errSum_addAt (n k j : Nat) (e : Int) (hs : List Int) (hj : j < n) (hk : k * n + j < hs.length) (k' y : Nat) :
    errSum n y (fun i => (addAt (k * n + j) e hs).getD (k' * n + i) 0 - hs.getD (k' * n + i) 0)
      = if k' = k ∧ y.testBit j then 2 ^ j * e else 0 := by
  have : errSum n y (fun i => (addAt (k * n + j) e hs).getD (k' * n + i) 0 - hs.getD (k' * n + i) 0)
      = errSum n y (fun i => if i = j then (if k' = k then e else 0) else 0) := by
    apply sumOver_congr
    intro i hi
    have hi : i < n := by simpa using hi
    dsimp only
    rw [addAt_getD _ _ _ _ hk]
    have : (k' * n + i = k * n + j) ↔ (i = j ∧ k' = k) := by
      constructor
      · intro h
        have h1 : (k' * n + i) % n = (k * n + j) % n := by rw [h]
        have h2 : (k' * n + i) / n = (k * n + j) / n := by rw [h]
        have hn : 0 < n := by omega
        rw [Nat.mul_comm, Nat.mul_add_mod, Nat.mod_eq_of_lt hi, Nat.mul_comm, Nat.mul_add_mod, Nat.mod_eq_of_lt hj] at h1
        rw [Nat.mul_comm, Nat.mul_add_div hn, Nat.div_eq_of_lt hi, Nat.mul_comm, Nat.mul_add_div hn, Nat.div_eq_of_lt hj] at h2
        exact ⟨h1, by omega⟩
      · rintro ⟨rfl, rfl⟩; rfl
    rw [if_congr this rfl rfl]
    by_cases h1 : i = j <;> by_cases h2 : k' = k <;> simp [h1, h2]
  rw [this, errSum_single n y j _ hj]
  by_cases h2 : k' = k <;> simp [h2]

/-- **C77 (selective failure).**  The sender adds `e` to one message, number `j` of element `k`: no error occurs, the shares of every other element add up to
the product, and the shares of element `k` do exactly if the bit `j` of the receiver's input is 0 (or the error is a multiple of `q`). -/
theorem C77_selective (ccrh : Block → Block) (q : Int) (n : Nat) (delta : Block) (K : Nat → Block) (ins : List Int)
    (inr : List Nat) (hl : inr.length = ins.length) (hb : ∀ y ∈ inr, y < 2 ^ n) (k j : Nat) (hk : k < ins.length) (hj : j < n) (e : Int)
    (he : ¬ q ∣ 2 ^ j * e) :
    ∃ os or', computeSent (addAt (k * n + j) e) ccrh q n delta K ins (inr.map Int.ofNat) = .ok (os, or', [])
      ∧ ∀ (k' : Nat) (x a b : Int) (y : Nat), ins[k']? = some x → inr[k']? = some y → os[k']? = some a → or'[k']? = some b →
        ((a + b) % q = (x * y) % q ↔ ¬ (k' = k ∧ y.testBit j = true)) := by
  obtain ⟨os, or', h1, h2, h3, h4⟩ := C77_sender (addAt (k * n + j) e) ccrh q n delta K ins inr hl hb (by intro l; simp [addAt])
  refine ⟨os, or', h1, ?_⟩
  intro k' x a b y g1 g2 g3 g4
  rw [h4 k' x a b y g1 g2 g3 g4, errSum_addAt n k j e _ hj]
  · by_cases h : k' = k ∧ y.testBit j = true
    · rw [if_pos h]
      constructor
      · intro hh
        exfalso
        apply he
        have := Int.emod_emod_of_dvd
        have h5 := (Int.emod_emod_of_dvd (x * y + 2 ^ j * e) (dvd_refl q))
        have h6 : (x * y + 2 ^ j * e) ≡ x * y [ZMOD q] := hh
        have h7 := h6.symm.dvd
        simpa using h7
      · intro hh; exact absurd h hh
    · rw [if_neg h, add_zero]
      exact ⟨fun _ => h, fun _ => rfl⟩
  · rw [send_length]
    calc k * n + j < k * n + n := by omega
      _ = (k + 1) * n := by ring
      _ ≤ ins.length * n := Nat.mul_le_mul_right _ hk
      _ = n * ins.length := by ring

/-- The number with the given bits. -/
def ofBits (c : Nat → Bool) : Nat → Nat
  | 0 => 0
  | n + 1 => ofBits c n + if c n then 2 ^ n else 0

theorem ofBits_lt (c : Nat → Bool) (n : Nat) : ofBits c n < 2 ^ n := by
  induction n with
  | zero => simp [ofBits]
  | succ n ih =>
    simp only [ofBits, pow_succ]
    split <;> omega

theorem ofBits_testBit (c : Nat → Bool) (n j : Nat) (hj : j < n) : (ofBits c n).testBit j = c j := by
  induction n with
  | zero => omega
  | succ n ih =>
    have hlt := ofBits_lt c n
    simp only [ofBits]
    rcases Nat.lt_or_ge j n with h | h
    · cases hc : c n
      · simpa using ih h
      · simp only [if_true]
        rw [Nat.add_comm, Nat.testBit_two_pow_add_gt h]
        exact ih h
    · have : j = n := by omega
      subst this
      cases hc : c j
      · simpa using Nat.testBit_lt_two_pow hlt
      · simp only [if_true]
        rw [Nat.add_comm, Nat.testBit_two_pow_add_eq, Nat.testBit_lt_two_pow hlt]
        rfl

/-- **C77 (a cheating receiver).**  Whatever choice bits the receiver gives to the OT, it has the outputs of the receiver of the code for some inputs of at
most `n` bits: it cannot do more than choose another input. -/
theorem C77_receiver (h : Block → Int) (q : Int) (n : Nat) (M : Nat → Bool → Block) : ∀ (cs : List (Nat → Bool)) (i : Nat) (ms : List Int),
    recvChoice h q n M i cs ms = recv h q n M i (cs.map fun c => Int.ofNat (ofBits c n)) ms := by
  intro cs
  induction cs with
  | nil => intro i ms; rfl
  | cons c cs ih =>
    intro i ms
    have : ((slice n i).map fun p => (p.1, c p.1, M p.2 (c p.1)))
        = ((slice n i).map fun p => (p.1, bitsOf (Int.ofNat (ofBits c n)) p.1, M p.2 (bitsOf (Int.ofNat (ofBits c n)) p.1))) := by
      apply List.map_congr_left
      intro p hp
      simp only [slice, List.mem_map, List.mem_range] at hp
      obtain ⟨j, hj, rfl⟩ := hp
      have : bitsOf (Int.ofNat (ofBits c n)) j = c j := ofBits_testBit c n j hj
      rw [this]
    simp only [recvChoice, List.map_cons, recv, this, ih]

theorem f2k_diff (raw : Nat → Bool → Block) (y : Block) (i : Nat) (tmp hs : List Block) :
    f2kRecv raw y i tmp = f2kRecv raw y i hs
      ^^^ accum (fun j => if y.getLsbD j then mulBlock (tmp.getD j 0 ^^^ hs.getD j 0) (base j) else 0) 128 := by
  simp only [f2kRecv]
  rw [innerProd_eq, innerProd_eq, accum_xor]
  apply accum_congr
  intro j _
  generalize hs.getD j 0 = u
  generalize tmp.getD j 0 = v
  cases y.getLsbD j
  · simp
  · simp only [if_true]
    rw [← mulBlock_lin_left (base j)]
    congr 1
    generalize raw (i * 128 + j) true = w
    ext k hk
    simp
    cases u[k] <;> cases v[k] <;> cases w[k] <;> rfl

theorem f2kRecvAll_any (raw : Nat → Bool → Block) : ∀ (inr : List Block) (i : Nat) (ms hs : List Block),
    ms.length = 128 * inr.length → hs.length = 128 * inr.length →
    ∃ o o', f2kRecvAll raw i inr hs = .ok (o, []) ∧ f2kRecvAll raw i inr ms = .ok (o', [])
      ∧ o.length = inr.length ∧ o'.length = inr.length
      ∧ ∀ (k : Nat) (y a b : Block), inr[k]? = some y → o[k]? = some a → o'[k]? = some b →
        b = a ^^^ accum (fun j => if y.getLsbD j then mulBlock (ms.getD (k * 128 + j) 0 ^^^ hs.getD (k * 128 + j) 0) (base j) else 0) 128 := by
  intro inr
  induction inr with
  | nil =>
    intro i ms hs h1 h2
    have e1 : ms = [] := List.length_eq_zero_iff.mp (by simpa using h1)
    have e2 : hs = [] := List.length_eq_zero_iff.mp (by simpa using h2)
    subst e1 e2
    exact ⟨[], [], rfl, rfl, rfl, rfl, by simp⟩
  | cons y inr ih =>
    intro i ms hs h1 h2
    rw [List.length_cons, Nat.mul_succ] at h1 h2
    obtain ⟨o, o', e, e', l, l', r⟩ := ih (i + 1) (ms.drop 128) (hs.drop 128) (by simp; omega) (by simp; omega)
    refine ⟨f2kRecv raw y i (hs.take 128) :: o, f2kRecv raw y i (ms.take 128) :: o', ?_, ?_, by simp [l], by simp [l'], ?_⟩
    · simp only [f2kRecvAll, if_neg (show ¬ hs.length < 128 by omega), e, bind, Except.bind]
    · simp only [f2kRecvAll, if_neg (show ¬ ms.length < 128 by omega), e', bind, Except.bind]
    · intro k y' c d h3 h4 h5
      cases k with
      | zero =>
        simp only [List.getElem?_cons_zero, Option.some.injEq] at h3 h4 h5
        subst h3 h4 h5
        rw [f2k_diff raw y i (ms.take 128) (hs.take 128)]
        rw [accum_congr _ (fun j => if y.getLsbD j then mulBlock (ms.getD (0 * 128 + j) 0 ^^^ hs.getD (0 * 128 + j) 0) (base j) else 0) 128]
        intro j hj
        simp [List.getD_eq_getElem?_getD, hj]
      | succ k =>
        simp only [List.getElem?_cons_succ] at h3 h4 h5
        rw [r k y' c d h3 h4 h5]
        rw [accum_congr _ (fun j => if y'.getLsbD j then mulBlock (ms.getD ((k + 1) * 128 + j) 0 ^^^ hs.getD ((k + 1) * 128 + j) 0) (base j) else 0) 128]
        intro j _
        have : 128 + (k * 128 + j) = (k + 1) * 128 + j := by omega
        simp [List.getD_eq_getElem?_getD, List.getElem?_drop, this]

theorem f2kSendAll_length (raw0 raw1 : Nat → Block) : ∀ (ins : List Block) (i : Nat),
    (f2kSendAll raw0 raw1 i ins).2.length = 128 * ins.length := by
  intro ins
  induction ins with
  | nil => intro i; rfl
  | cons x ins ih =>
    intro i
    simp only [f2kSendAll, List.length_append, ih, List.length_cons]
    simp [f2kSend]; omega

/-- **C77 (GF(2^128)).**  The same for `OLEF2K`: whatever blocks the sender sends, the receiver ends without an error and each of its outputs is off by the sum
of the errors times the unit vectors over the bits set in its own input. -/
theorem C77_f2k (cheat : List Block → List Block) (raw0 raw1 : Nat → Block) (ins inr : List Block) (hl : inr.length = ins.length)
    (hc : ∀ l, (cheat l).length = l.length) :
    let hs := (f2kSendAll raw0 raw1 0 ins).2
    ∃ os or', f2kComputeSent cheat raw0 raw1 ins inr = .ok (os, or', []) ∧ os.length = ins.length ∧ or'.length = ins.length
      ∧ ∀ (k : Nat) (x y a b : Block), ins[k]? = some x → inr[k]? = some y → os[k]? = some a → or'[k]? = some b →
        a ^^^ b = Spec.gcmMul x y
          ^^^ accum (fun j => if y.getLsbD j then Spec.gcmMul ((cheat hs).getD (k * 128 + j) 0 ^^^ hs.getD (k * 128 + j) 0) (base j) else 0) 128 := by
  intro hs
  obtain ⟨os, o, e, l1, l2, r⟩ := C22_ole_f2k raw0 raw1 ins inr hl
  have hlen : hs.length = 128 * inr.length := by rw [hl]; exact f2kSendAll_length _ _ _ _
  obtain ⟨o1, o2, e1, e2, m1, m2, s⟩ := f2kRecvAll_any (fun k c => if c then raw1 k else raw0 k) inr 0 (cheat hs) hs (by rw [hc, hlen]) hlen
  have e' : f2kCompute raw0 raw1 ins inr = .ok ((f2kSendAll raw0 raw1 0 ins).1, o1, []) := by
    simp only [f2kCompute]
    rw [show (f2kSendAll raw0 raw1 0 ins).2 = hs from rfl, e1]
    rfl
  obtain ⟨rfl, h2⟩ := Prod.mk.inj (Except.ok.inj (e.symm.trans e'))
  obtain ⟨rfl, -⟩ := Prod.mk.inj h2
  refine ⟨_, o2, ?_, l1, by omega, ?_⟩
  · simp only [f2kComputeSent]
    rw [show cheat (f2kSendAll raw0 raw1 0 ins).2 = cheat hs from rfl, e2]
    rfl
  · intro k x y a b h1 h2 h3 h4
    obtain ⟨c, hc'⟩ : ∃ c, o[k]? = some c := by
      have : k < o.length := by
        have := (List.getElem?_eq_some_iff.1 h4).1
        omega
      exact ⟨_, List.getElem?_eq_getElem this⟩
    have t1 : a ^^^ c = Spec.gcmMul x y := by
      have := congrArg (fun l => l[k]?) r
      simp only [List.getElem?_zipWith, h1, h2, h3, hc'] at this
      exact Option.some.inj this
    rw [s k y c b h2 hc' h4, ← BitVec.xor_assoc, t1]
    rw [accum_congr _ (fun j => if y.getLsbD j then Spec.gcmMul ((cheat hs).getD (k * 128 + j) 0 ^^^ hs.getD (k * 128 + j) 0) (base j) else 0) 128]
    intro j _
    rw [mulBlock_eq_gcmMul]

theorem offline_len (q : Nat) (r : Rand) (out : List Int) (p : Pre) (h : offline q r out = .ok p) : out.length = 5 := by
  unfold offline at h
  split at h
  · rfl
  · cases h

/-- The members of a party after an error in the last output of the OLE. -/
theorem offline_last (q : Nat) (r : Rand) (o o' : List Int) (p : Pre) (d : Int) (h : offline q r o = .ok p) (hl : o'.length = 5)
    (he : ∀ (k : Nat) (a b : Int), o[k]? = some a → o'[k]? = some b → b ≡ a + (if k = 4 then d else 0) [ZMOD q]) :
    ∃ t, offline q r o' = .ok { p with r2 := t } ∧ (t : ZMod q) = p.r2 + 2 * d := by
  have l := offline_len q r o p h
  match o, l with
  | [a0, a1, a2, a3, a4], _ =>
    match o', hl with
    | [b0, b1, b2, b3, b4], _ =>
      have h0 : b0 ≡ a0 [ZMOD q] := by simpa using he 0 a0 b0 rfl rfl
      have h1 : b1 ≡ a1 [ZMOD q] := by simpa using he 1 a1 b1 rfl rfl
      have h2 : b2 ≡ a2 [ZMOD q] := by simpa using he 2 a2 b2 rfl rfl
      have h3 : b3 ≡ a3 [ZMOD q] := by simpa using he 3 a3 b3 rfl rfl
      have h4 : b4 ≡ a4 + d [ZMOD q] := by simpa using he 4 a4 b4 rfl rfl
      have h4' := zmod_of_emod _ _ _ h4
      push_cast at h4'
      simp only [offline] at h ⊢
      obtain rfl := Except.ok.inj h
      have g : ∀ (c x x' y y' : Int), x' ≡ x [ZMOD q] → y' ≡ y [ZMOD q] → ((c + x') % q + y') % (q : Int) = ((c + x) % q + y) % q := by
        intro c x x' y y' hx hy
        exact (((Int.mod_modEq _ _).trans ((hx.add_left c).trans (Int.mod_modEq _ _).symm)).add hy)
      rw [g _ _ _ _ _ h0 h1, g _ _ _ _ _ h2 h3]
      refine ⟨_, rfl, ?_⟩
      simp only [cast_emod, Int.cast_add, Int.cast_mul, Int.cast_natCast, h4']
      ring

/-- The party holding the offset cheats: what the others have. -/
theorem offlineSent_ok (ccrh : Block → Block) (q n : Nat) (hq : 0 < q) (hn : q ≤ 2 ^ n) (delta : Block) (K : Nat → Block)
    (s : Bool) (ra rb : Rand) (j : Nat) (hj : j < n) (e : Int) :
    ∃ pa pb t, offlineBoth ccrh q n delta K s ra rb = .ok (pa, pb)
      ∧ offlineSent (addAt (4 * n + j) e) ccrh q n delta K s ra rb
        = .ok (if s then (pa, { pb with r2 := t }) else ({ pa with r2 := t }, pb))
      ∧ (t : ZMod q) = (if s then pb.r2 else pa.r2) + 2 * ((if ((if s then rb.r else ra.r) % q).testBit j then 2 ^ j * e else 0 : Int) : ZMod q) := by
  have key : ∀ (ins inr : List Nat) (rr : Rand), ins.length = 5 → inr.length = 5 → inr[4]? = some rr.r →
      ∀ (os or' : List Int) (m : List Int) (p : Pre),
      OLE.compute ccrh q n delta K (ins.map Int.ofNat) (inr.map Int.ofNat) = .ok (os, or', m) → offline q rr or' = .ok p →
      ∃ or'' t, OLE.computeSent (addAt (4 * n + j) e) ccrh q n delta K (ins.map Int.ofNat) (inr.map Int.ofNat) = .ok (os, or'', [])
        ∧ offline q rr or'' = .ok { p with r2 := t }
        ∧ (t : ZMod q) = p.r2 + 2 * ((if rr.r.testBit j then 2 ^ j * e else 0 : Int) : ZMod q) := by
    intro ins inr rr l1 l2 hr os or' m p hc ho
    have hlen : (send (hashBn ccrh q) q n delta K 0 (ins.map Int.ofNat)).2.length = n * inr.length := by
      rw [send_length, List.length_map, l1, l2]
    obtain ⟨o1, o2, e1, e2, m1, m2, sd⟩ := recv_any (hashBn ccrh q) q n (fun k c => K k ^^^ (if c then delta else 0)) inr 0
      (addAt (4 * n + j) e (send (hashBn ccrh q) q n delta K 0 (ins.map Int.ofNat)).2) _ (by simp only [addAt, List.length_modify]; exact hlen) hlen
    have e3 : OLE.compute ccrh q n delta K (ins.map Int.ofNat) (inr.map Int.ofNat)
        = .ok ((send (hashBn ccrh q) q n delta K 0 (ins.map Int.ofNat)).1, o1, []) := by
      simp only [OLE.compute, e1]; rfl
    obtain ⟨rfl, h2⟩ := Prod.mk.inj (Except.ok.inj (hc.symm.trans e3))
    obtain ⟨rfl, -⟩ := Prod.mk.inj h2
    obtain ⟨t, f1, f2⟩ := offline_last q rr or' o2 p (if rr.r.testBit j then 2 ^ j * e else 0) ho (by omega) (by
      intro k a b ha hb
      have hk : k < inr.length := by
        have := (List.getElem?_eq_some_iff.1 hb).1
        omega
      have hd := sd k inr[k] a b (List.getElem?_eq_getElem hk) ha hb
      rw [errSum_addAt n 4 j e _ hj (by rw [hlen, l2]; omega)] at hd
      by_cases h4 : k = 4
      · subst h4
        have hi : inr[4] = rr.r := by
          rw [List.getElem?_eq_getElem hk] at hr
          exact Option.some.inj hr
        simpa [hi] using hd
      · simpa [h4] using hd)
    refine ⟨o2, t, ?_, f1, f2⟩
    simp only [computeSent, e2]; rfl
  obtain ⟨pa, pb, ho, -⟩ := offlineBoth_ok ccrh q n hq hn delta K s ra rb
  cases s with
  | true =>
    simp only [offlineBoth, if_true] at ho
    obtain ⟨⟨oa, ob, m⟩, hc, ho⟩ := HandshakeProof.bind_ok.1 ho
    obtain ⟨pa', ha, ho⟩ := HandshakeProof.bind_ok.1 ho
    obtain ⟨pb', hb, ho⟩ := HandshakeProof.bind_ok.1 ho
    obtain ⟨rfl, rfl⟩ := Prod.mk.inj (Except.ok.inj ho)
    obtain ⟨or'', t, k1, k2, k3⟩ := key _ _ (rb.reduce q) rfl rfl rfl _ _ _ _ hc hb
    refine ⟨pa', pb', t, ?_, ?_, ?_⟩
    · simp only [offlineBoth, if_true, hc, ha, hb, bind, Except.bind]
    · simp only [offlineSent, if_true, k1, ha, k2, bind, Except.bind]
    · simp only [if_true]; exact k3
  | false =>
    simp only [offlineBoth, Bool.false_eq_true, if_false] at ho
    obtain ⟨⟨ob, oa, m⟩, hc, ho⟩ := HandshakeProof.bind_ok.1 ho
    obtain ⟨pa', ha, ho⟩ := HandshakeProof.bind_ok.1 ho
    obtain ⟨pb', hb, ho⟩ := HandshakeProof.bind_ok.1 ho
    obtain ⟨rfl, rfl⟩ := Prod.mk.inj (Except.ok.inj ho)
    obtain ⟨or'', t, k1, k2, k3⟩ := key _ _ (ra.reduce q) rfl rfl rfl _ _ _ _ hc ha
    refine ⟨pa', pb', t, ?_, ?_, ?_⟩
    · simp only [offlineBoth, Bool.false_eq_true, if_false, hc, ha, hb, bind, Except.bind]
    · simp only [offlineSent, Bool.false_eq_true, if_false, k1, hb, k2, bind, Except.bind]
    · simp only [Bool.false_eq_true, if_false]; exact k3

/-- The messages of the second phase do not depend on the shares of `r²`. -/
theorem talk_r2 (q : Nat) (pa pb : Pre) (t u : Int) (xa ya xb yb : Int) :
    (talk q { pa with r2 := t } { pb with r2 := u } xa ya xb yb).1 = (talk q pa pb xa ya xb yb).1
    ∧ (talk q { pa with r2 := t } { pb with r2 := u } xa ya xb yb).2.1 = (talk q pa pb xa ya xb yb).2.1 := by
  have h1 := E2FView.talk_eq q pa pb xa ya xb yb
  have h2 := E2FView.talk_eq q { pa with r2 := t } { pb with r2 := u } xa ya xb yb
  exact ⟨h2.1.trans h1.1.symm, h2.2.trans h1.2.symm⟩

theorem talkSent_id (ccrh : Block → Block) (q n : Nat) (delta : Block) (K : Nat → Block) (s : Bool) (ra rb : Rand) (xa ya xb yb : Int) :
    talkSent id ccrh q n delta K s ra rb xa ya xb yb = (offlineBoth ccrh q n delta K s ra rb).bind fun p => .ok (talk q p.1 p.2 xa ya xb yb) := rfl

/-- **C77 (the point conversion).**  The party holding the offset adds `e` to message `j` of the fifth element of the OLE and follows the code in everything
else.  Then all messages of both parties in the second phase are those of the run without the change, the run is refused exactly when that one is, and otherwise
both parties end with outputs that add up to the x coordinate plus, if the bit `j` of the other party's `r` is 1, `2 · 2^j · e`. -/
theorem C77_conversion (ccrh : Block → Block) (q n : Nat) [hp : Fact q.Prime] (hn : q ≤ 2 ^ n) (delta : Block) (K : Nat → Block)
    (s : Bool) (ra rb : Rand) (xa ya xb yb : Int) (j : Nat) (hj : j < n) (e : Int) :
    ∃ ma mb res res', talkSent id ccrh q n delta K s ra rb xa ya xb yb = .ok (ma, mb, res)
      ∧ talkSent (addAt (4 * n + j) e) ccrh q n delta K s ra rb xa ya xb yb = .ok (ma, mb, res')
      ∧ ((((xb : ZMod q) - xa) * (ra.a + rb.a) = 0 ∧ res = .error (.error "w is zero, invalid!") ∧ res' = .error (.error "w is zero, invalid!"))
        ∨ (((xb : ZMod q) - xa) * (ra.a + rb.a) ≠ 0 ∧ ∃ oa ob oa' ob', res = .ok (oa, ob) ∧ res' = .ok (oa', ob')
          ∧ (if s then oa' = oa else ob' = ob)
          ∧ ((oa + ob : Int) : ZMod q) = sumX (xa : ZMod q) ya xb yb
          ∧ ((oa' + ob' : Int) : ZMod q) = sumX (xa : ZMod q) ya xb yb
            + if ((if s then rb.r else ra.r) % q).testBit j then 2 * 2 ^ j * (e : ZMod q) else 0)) := by
  obtain ⟨pa, pb, t, h1, h2, h3⟩ := offlineSent_ok ccrh q n hp.out.pos hn delta K s ra rb j hj e
  obtain ⟨pa', pb', g1, g2⟩ := offlineBoth_ok ccrh q n hp.out.pos hn delta K s ra rb
  obtain ⟨rfl, rfl⟩ := Prod.mk.inj (Except.ok.inj (h1.symm.trans g1))
  have e1 : talkSent id ccrh q n delta K s ra rb xa ya xb yb = .ok (talk q pa pb xa ya xb yb) := by
    rw [talkSent_id, h1]; rfl
  have hq : (((if ((if s then rb.r else ra.r) % q).testBit j then 2 ^ j * e else 0 : Int) : ZMod q)) * 2
      = if ((if s then rb.r else ra.r) % q).testBit j then 2 * 2 ^ j * (e : ZMod q) else 0 := by
    cases ((if s then rb.r else ra.r) % q).testBit j
    · simp
    · simp only [if_true]; push_cast; ring
  cases s with
  | true =>
    simp only [if_true] at h2 h3 hq ⊢
    have e2 : talkSent (addAt (4 * n + j) e) ccrh q n delta K true ra rb xa ya xb yb = .ok (talk q pa { pb with r2 := t } xa ya xb yb) := by
      simp only [talkSent, h2, bind, Except.bind]
    have m := talk_r2 q pa pb pa.r2 t xa ya xb yb
    refine ⟨(talk q pa pb xa ya xb yb).1, (talk q pa pb xa ya xb yb).2.1, (talk q pa pb xa ya xb yb).2.2, (talk q pa { pb with r2 := t } xa ya xb yb).2.2, e1, ?_, ?_⟩
    · rw [e2, ← m.1, ← m.2]
    · rw [E2FView.C55_parties, E2FView.C55_parties]
      have on := online_ok q ra rb pa pb g2 xa ya xb yb
      rw [online_eq] at on ⊢
      rw [online_eq]
      have hw : wOpen q pa { pb with r2 := t } xa xb = wOpen q pa pb xa xb := rfl
      rw [hw]
      by_cases hz : wOpen q pa pb xa xb = 0
      · rw [if_pos hz] at on
        rw [if_pos hz, if_pos hz]
        rcases on with on | ⟨-, oa, ob, on, -⟩
        · exact Or.inl ⟨on.1, rfl, rfl⟩
        · cases on
      · rw [if_neg hz] at on
        rw [if_neg hz, if_neg hz]
        rcases on with ⟨-, on⟩ | ⟨hne, oa, ob, on, -, -, -, -, hs⟩
        · cases on
        · refine Or.inr ⟨hne, oa, ob, _, _, on, rfl, ?_, hs, ?_⟩
          · exact congrArg Prod.fst (Except.ok.inj on)
          · obtain ⟨rfl, rfl⟩ := Prod.mk.inj (Except.ok.inj on)
            rw [← hs, ← hq]
            simp only [finA, Int.cast_add, Int.cast_mul, Int.cast_sub, cast_emod, Int.cast_zero, h3]
            have he : ∀ I, etaOpen q pa { pb with r2 := t } I ya yb = etaOpen q pa pb I ya yb := fun _ => rfl
            rw [he]
            ring
  | false =>
    simp only [Bool.false_eq_true, if_false] at h2 h3 hq ⊢
    have e2 : talkSent (addAt (4 * n + j) e) ccrh q n delta K false ra rb xa ya xb yb = .ok (talk q { pa with r2 := t } pb xa ya xb yb) := by
      simp only [talkSent, h2, bind, Except.bind]
    have m := talk_r2 q pa pb t pb.r2 xa ya xb yb
    refine ⟨(talk q pa pb xa ya xb yb).1, (talk q pa pb xa ya xb yb).2.1, (talk q pa pb xa ya xb yb).2.2, (talk q { pa with r2 := t } pb xa ya xb yb).2.2, e1, ?_, ?_⟩
    · rw [e2, ← m.1, ← m.2]
    · rw [E2FView.C55_parties, E2FView.C55_parties]
      have on := online_ok q ra rb pa pb g2 xa ya xb yb
      rw [online_eq] at on ⊢
      rw [online_eq]
      have hw : wOpen q { pa with r2 := t } pb xa xb = wOpen q pa pb xa xb := rfl
      rw [hw]
      by_cases hz : wOpen q pa pb xa xb = 0
      · rw [if_pos hz] at on
        rw [if_pos hz, if_pos hz]
        rcases on with on | ⟨-, oa, ob, on, -⟩
        · exact Or.inl ⟨on.1, rfl, rfl⟩
        · cases on
      · rw [if_neg hz] at on
        rw [if_neg hz, if_neg hz]
        rcases on with ⟨-, on⟩ | ⟨hne, oa, ob, on, -, -, -, -, hs⟩
        · cases on
        · refine Or.inr ⟨hne, oa, ob, _, _, on, rfl, ?_, hs, ?_⟩
          · exact congrArg Prod.snd (Except.ok.inj on)
          · obtain ⟨rfl, rfl⟩ := Prod.mk.inj (Except.ok.inj on)
            rw [← hs, ← hq]
            simp only [finA, Int.cast_add, Int.cast_mul, Int.cast_sub, cast_emod, Int.cast_zero, h3]
            have he : ∀ I, etaOpen q { pa with r2 := t } pb I ya yb = etaOpen q pa pb I ya yb := fun _ => rfl
            rw [he]
            ring

/-- **C77 (one bit of the other party's random number).**  If `q` is odd and does not divide `e`, the conversion under that change is right exactly if the bit is 0: the
success of what follows tells the cheating party a bit of its choice of the other party's `r`. -/
theorem C77_bit (ccrh : Block → Block) (q n : Nat) [hp : Fact q.Prime] (h2 : q ≠ 2) (hn : q ≤ 2 ^ n) (delta : Block) (K : Nat → Block)
    (s : Bool) (ra rb : Rand) (xa ya xb yb : Int) (j : Nat) (hj : j < n) (e : Int) (he : ¬ (q : Int) ∣ e)
    (ma mb : List Int) (oa ob : Int) (h : talkSent (addAt (4 * n + j) e) ccrh q n delta K s ra rb xa ya xb yb = .ok (ma, mb, .ok (oa, ob))) :
    ((oa + ob : Int) : ZMod q) = sumX (xa : ZMod q) ya xb yb ↔ ((if s then rb.r else ra.r) % q).testBit j = false := by
  obtain ⟨ma', mb', res, res', -, e2, hh⟩ := C77_conversion ccrh q n hn delta K s ra rb xa ya xb yb j hj e
  obtain ⟨-, h3⟩ := Prod.mk.inj (Except.ok.inj (h.symm.trans e2))
  obtain ⟨-, rfl⟩ := Prod.mk.inj h3
  rcases hh with ⟨-, -, hh⟩ | ⟨-, a, b, a', b', -, hr, -, -, hs⟩
  · cases hh
  · obtain ⟨rfl, rfl⟩ := Prod.mk.inj (Except.ok.inj hr)
    rw [hs]
    have two : (2 : ZMod q) ≠ 0 := by
      intro h0
      have h0' : ((2 : Nat) : ZMod q) = 0 := by exact_mod_cast h0
      have := (Nat.prime_dvd_prime_iff_eq hp.out Nat.prime_two).1 ((ZMod.natCast_eq_zero_iff 2 q).1 h0')
      exact h2 this
    have ne : (e : ZMod q) ≠ 0 := fun h0 => he ((ZMod.intCast_zmod_eq_zero_iff_dvd e q).1 h0)
    cases ((if s then rb.r else ra.r) % q).testBit j
    · simp
    · simp [two, ne]

/-- The bit tells: 1 at position 1 of 2, 0 at position 0, and the same messages. -/
example : ∃ ma mb o o', talkSent id (fun b => b * b + 3#128) 101 7 5 (fun i => BitVec.ofNat 128 (i * 7 + 1)) true ⟨12, 4, 9, 55⟩ ⟨30, 8, 77, 2⟩
      3 10 7 50 = .ok (ma, mb, .ok o)
    ∧ talkSent (addAt (4 * 7 + 1) 9) (fun b => b * b + 3#128) 101 7 5 (fun i => BitVec.ofNat 128 (i * 7 + 1)) true ⟨12, 4, 9, 55⟩ ⟨30, 8, 77, 2⟩
      3 10 7 50 = .ok (ma, mb, .ok o') ∧ (o.1 + o.2) % 101 = (100 - 10) % 101 ∧ (o'.1 + o'.2) % 101 = (100 - 10 + 36) % 101 := by
  refine ⟨_, _, _, _, rfl, rfl, by decide +kernel, by decide +kernel⟩

example : ∃ os or', computeSent (addAt (1 * 10 + 3) 5) (fun b => b * b + 12345#128) 1009 10 77 (fun i => BitVec.ofNat 128 (i * i + 5)) [100, 7] [600, 1008]
    = .ok (os, or', []) ∧ List.zipWith (fun a b => (a + b) % 1009) os or' = [(100 * 600) % 1009, (7 * 1008) % 1009] := by
  refine ⟨_, _, rfl, by decide +kernel⟩

example : ∃ os or', computeSent (addAt (1 * 10 + 5) 5) (fun b => b * b + 12345#128) 1009 10 77 (fun i => BitVec.ofNat 128 (i * i + 5)) [100, 7] [600, 1008]
    = .ok (os, or', []) ∧ List.zipWith (fun a b => (a + b) % 1009) os or' = [(100 * 600) % 1009, (7 * 1008 + 160) % 1009] := by
  refine ⟨_, _, rfl, by decide +kernel⟩

end Verif.Props.OLECheat
