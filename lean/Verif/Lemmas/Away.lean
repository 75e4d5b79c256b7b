import Verif.Lemmas.AESLabels
import Verif.Model.GateOnline

/-! Operations that leave the wires of the cipher circuit alone. -/

namespace Verif.Lemmas.AESDrift
open Verif.Model Verif.Model.Integer Verif.Model.Gate Verif.Model.AESCircuit Verif.Model.GC Verif.Lemmas.AESCert Verif.Lemmas.Bristol Verif.Lemmas.AESCircuit Verif.Lemmas.AESProbe
open Verif.Lemmas.Gate (wv Valid IR BR inR bv bv_eq Ext)
open Verif.Spec
open Verif.Spec.Encoding
open Verif.Spec.Circuit (Op next onWire drift Calm Away)

/-- Nothing is on the wires outside. -/
def Clean (lo hi : Nat) (D : List Block) : Prop := hi ≤ D.length ∧ ∀ i, i < lo ∨ hi ≤ i → onWire D i = 0

theorem clean_snoc {lo hi : Nat} {D : List Block} (h : Clean lo hi D) : Clean lo hi (D ++ [0]) := by
  refine ⟨by rw [List.length_append]; exact Nat.le_add_right_of_le h.1, fun i hi' => ?_⟩
  have := h.2 i hi'
  unfold onWire at this ⊢
  by_cases hl : i < D.length
  · rw [List.getD_append _ _ _ _ hl]; exact this
  · rw [List.getD_append_right _ _ _ _ (by omega)]
    cases i - D.length <;> rfl

theorem clean_step {P : Nat → Block × Block} {c : Nat → Bool} {lo hi : Nat} {st : Nat × List Block} (h : Clean lo hi st.2) (hP : ∀ k, st.1 ≤ k → P k = (0, 0)) {op : Op}
    (ho : Away lo hi op) : Clean lo hi (drift P c st op).2 ∧ st.1 ≤ (drift P c st op).1 := by
  cases op with
  | reveal p ws => exact ⟨h, Nat.le_refl _⟩
  | and i j =>
    refine ⟨?_, Nat.le_succ _⟩
    have : (drift P c st (.and i j)).2 = st.2 ++ [0] := by
      simp only [drift, hP _ (Nat.le_refl _), ite_self]
      rfl
    rw [this]
    exact clean_snoc h
  | xor i j =>
    refine ⟨?_, Nat.le_refl _⟩
    have : (drift P c st (.xor i j)).2 = st.2 ++ [0] := by
      simp only [drift, h.2 i ho.1, h.2 j ho.2]
      rfl
    rw [this]
    exact clean_snoc h
  | not i =>
    refine ⟨?_, Nat.le_refl _⟩
    have : (drift P c st (.not i)).2 = st.2 ++ [0] := by
      simp only [drift, h.2 i ho]
    rw [this]
    exact clean_snoc h
  | _ => exact ⟨clean_snoc h, Nat.le_refl _⟩

theorem away_calm {P : Nat → Block × Block} {c : Nat → Bool} {lo hi : Nat} : ∀ (ops : List Op) (st : Nat × List Block), Clean lo hi st.2 → (∀ k, st.1 ≤ k → P k = (0, 0)) →
    (∀ op ∈ ops, Away lo hi op) → Calm P c st ops
  | [], _, _, _, _ => trivial
  | op :: ops, st, h, hP, ho => by
    obtain ⟨h1, h2⟩ := clean_step (c := c) h hP (ho op (by simp))
    refine ⟨?_, away_calm ops _ h1 (fun k hk => hP k (by omega)) fun x hx => ho x (List.mem_cons_of_mem _ hx)⟩
    rintro i j rfl
    have := ho (.and i j) (by simp)
    exact ⟨h.2 i this.1, h.2 j this.2, fun hne => absurd (hP _ (Nat.le_refl _)) hne⟩

/-- A session that leaves the wires of the circuit alone after it. -/
theorem after_calm {s : Sess} (hs : Valid s) {x y : SInt} (hin : Inputs s x y) (S c : Nat → Bool) (ops : List Op)
    (ho : ∀ op ∈ ops, Away (s.n + 2) (s.n + 2 + aesEncKs.numGate) op) : Calm (keyRows (firstNo s) S) c (0, []) ((after s x y).program ++ ops) := by
  obtain ⟨h1, h2⟩ := drift_after hs hin S c
  rw [calm_app, h1]
  refine ⟨h2, away_calm (lo := s.n + 2) (hi := s.n + 2 + aesEncKs.numGate) ops _ ⟨?_, ?_⟩ (fun k hk => rows_after hk) ho⟩
  · simp only [List.length_append, List.length_replicate, List.length_map, List.length_range]; exact Nat.le_refl _
  · rintro i (hi | hi)
    · rw [onWire_left _ _ _ (by rw [List.length_replicate]; exact hi)]
      exact onWire_zeros _ _
    · unfold onWire
      rw [List.getD_eq_default _ _ (by simp only [List.length_append, List.length_replicate, List.length_map, List.length_range]; exact hi)]

/-! ### The counter -/

/-- The wire is not one of the circuit. -/
def awayW (lo hi : Nat) (w : Wire) : Prop := wireNo w < lo ∨ hi ≤ wireNo w

theorem away_left {lo hi : Nat} {w : Wire} (h : wireNo w < lo) : awayW lo hi w := Or.inl h

theorem away_pub {lo hi : Nat} (h : 2 ≤ lo) (b : Bool) : awayW lo hi (.pub b) := Or.inl (by cases b <;> simp only [wireNo, Bool.toNat_false, Bool.toNat_true] <;> omega)

/-- Run from `s`, `m` computes without the wires of the circuit. -/
def Apart {α : Type} (lo hi : Nat) (s : Sess) (m : M α) (Q : α → Prop) : Prop :=
  hi ≤ s.n + 2 → ∀ O, ∃ a t ops, m O s = .ok (a, t) ∧ t.program = s.program ++ ops ∧ hi ≤ t.n + 2 ∧ (∀ op ∈ ops, Away lo hi op) ∧ Q a

theorem Apart.pure {α : Type} {lo hi : Nat} {s : Sess} {Q : α → Prop} {a : α} (h : Q a) : Apart lo hi s (Pure.pure a) Q :=
  fun hn _ => ⟨a, s, [], rfl, (List.append_nil _).symm, hn, (by intro op hop; cases hop), h⟩

theorem Apart.bind {α β : Type} {lo hi : Nat} {s : Sess} {m : M α} {f : α → M β} {Q : α → Prop} {R : β → Prop} (h : Apart lo hi s m Q)
    (hf : ∀ a t, Q a → Apart lo hi t (f a) R) : Apart lo hi s (m >>= f) R := by
  intro hn O
  obtain ⟨a, t, ops, e, hp, ht, ho, hq⟩ := h hn O
  obtain ⟨b, u, ops', e', hp', hu, ho', hr⟩ := hf a t hq ht O
  refine ⟨b, u, ops ++ ops', by rw [bind_run e, e'], by rw [hp', hp, List.append_assoc], hu, fun op h => ?_, hr⟩
  rcases List.mem_append.1 h with h | h
  · exact ho op h
  · exact ho' op h

theorem program_gate (s : Sess) (e : Ev) : (⟨e :: s.evs, s.n + 1⟩ : Sess).program = s.program ++ evOps e := by
  simp [Sess.program]

theorem Apart.gate {lo hi : Nat} {s : Sess} (e : Ev) (he : ∀ op ∈ evOps e, Away lo hi op) : Apart lo hi s (Model.Gate.gate e) (awayW lo hi) :=
  fun hn _ => ⟨.idx s.n, _, _, rfl, program_gate s e, by show hi ≤ s.n + 1 + 2; omega, he, Or.inr (by show hi ≤ s.n + 2; exact hn)⟩

theorem apart_xor {lo hi : Nat} {s : Sess} {a b : Wire} (ha : awayW lo hi a) (hb : awayW lo hi b) : Apart lo hi s (xorG a b) (awayW lo hi) :=
  Apart.gate _ (by intro op h; simp only [evOps, List.mem_singleton] at h; subst h; exact ⟨ha, hb⟩)

theorem apart_and {lo hi : Nat} {s : Sess} {a b : Wire} (ha : awayW lo hi a) (hb : awayW lo hi b) : Apart lo hi s (andG a b) (awayW lo hi) :=
  Apart.gate _ (by intro op h; simp only [evOps, List.mem_singleton] at h; subst h; exact ⟨ha, hb⟩)

theorem away_headD {lo hi : Nat} (h2 : 2 ≤ lo) {bs : SInt} (h : ∀ w ∈ bs, awayW lo hi w) : awayW lo hi (bs.headD (.pub false)) := by
  cases bs with
  | nil => exact away_pub h2 _
  | cons b bs => exact h b (by simp)

theorem apart_ripple {lo hi : Nat} (h2 : 2 ≤ lo) : ∀ (as bs : SInt) (c : Wire) (s : Sess), (∀ w ∈ as, awayW lo hi w) → (∀ w ∈ bs, awayW lo hi w) → awayW lo hi c →
    Apart lo hi s (addRipple as bs c) (fun r => ∀ w ∈ r, awayW lo hi w)
  | [], bs, c, s, _, _, _ => Apart.pure (by intro w h; cases h)
  | [a], bs, c, s, ha, hb, hc => by
    unfold addRipple
    refine Apart.bind (apart_xor hc (away_headD h2 hb)) fun t _ ht => ?_
    refine Apart.bind (apart_xor ht (ha a (by simp))) fun d _ hd => Apart.pure ?_
    intro w hw
    rw [List.mem_singleton] at hw
    subst hw
    exact hd
  | a :: a' :: as, bs, c, s, ha, hb, hc => by
    unfold addRipple
    have h1 := ha a (by simp)
    refine Apart.bind (apart_xor h1 hc) fun axc _ hx => ?_
    refine Apart.bind (apart_xor (away_headD h2 hb) hc) fun bxc _ hy => ?_
    refine Apart.bind (apart_xor h1 hy) fun d _ hd => ?_
    refine Apart.bind (apart_and hx hy) fun t _ ht => ?_
    refine Apart.bind (apart_xor hc ht) fun c' _ hc' => ?_
    refine Apart.bind (apart_ripple h2 (a' :: as) bs.tail c' _ (fun w h => ha w (List.mem_cons_of_mem _ h)) (fun w h => hb w (List.mem_of_mem_tail h)) hc') fun r _ hr => Apart.pure ?_
    intro w hw
    rcases List.mem_cons.1 hw with rfl | hw
    · exact hd
    · exact hr w hw

theorem apart_inc {lo hi : Nat} (h2 : 2 ≤ lo) {s : Sess} {c : SInt} (hl : 32 ≤ c.length) (hc : ∀ w ∈ c, awayW lo hi w) : Apart lo hi s (incG empLib c 32) (fun _ => True) := by
  unfold incG
  rw [if_neg (by omega)]
  refine Apart.bind (apart_ripple h2 _ _ _ _ (fun w h => hc w (List.mem_of_mem_take h)) ?_ (away_pub h2 _)) fun _ _ _ => Apart.pure trivial
  intro w hw
  obtain ⟨b, -, rfl⟩ := List.mem_map.1 hw
  exact away_pub h2 b

/-! ### The session after the circuit -/

theorem after_valid {s : Sess} (hs : Valid s) {x y : SInt} {ws : List AES.Word} (hsc : IsSchedule ws) {msg : List Byte} (hm : msg.length = 16)
    (hx : IR s x (keyLayout ws)) (hy : IR s y (strToInt msg)) : Valid (after s x y) ∧ Ext s (after s x y) := by
  obtain ⟨-, l, hl, hn, -⟩ := after_values hs hsc hm hx hy
  have hg : ∀ i < s.n + 2, Circuit.get (wv (after s x y)) i = Circuit.get (wv s) i := by
    intro i hi
    unfold Circuit.get
    rw [hl, List.getD_append _ _ _ _ (by rw [hs.1]; exact hi)]
  refine ⟨⟨?_, ?_, ?_⟩, ?_⟩
  · rw [hl, List.length_append, hn, hs.1]
    show _ = s.n + aesEncKs.numGate + 2
    omega
  · exact (hg 0 (by omega)).trans hs.2.1
  · exact (hg 1 (by omega)).trans hs.2.2
  · rintro w b ⟨h1, h2⟩
    cases w with
    | pub c =>
      have h2 : c = b := h2
      subst h2
      exact BR.pub c
    | idx k =>
      have h1 : k < s.n := h1
      exact ⟨Nat.lt_of_lt_of_le h1 (Nat.le_add_right _ _), (hg (k + 2) (by omega)).trans h2⟩

end Verif.Lemmas.AESDrift
