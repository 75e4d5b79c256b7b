import Verif.Lemmas.Ownership

/-!
C61: every OpenSSL object that the classes of the repository allocate is freed exactly once, at the latest by the destructor
of the object; nothing else is freed and nothing is freed twice.

It holds for `OLE`, `E2F`, `HandShakeOffline`, `PRFProver` and for the BOB side of `PostRecord`.  It fails wherever a
`UniquePoint` is built from a pointer, because that constructor drops its argument, and in `mask_mac`, which gives `r` to no
guard: the theorems say exactly what is lost by any sequence of calls.
-/

namespace Verif.Props.Ownership
open Verif.Model Own Integer
open Verif.Lemmas.Own

/-- The objects of a program before and after a part of it: everything allocated in between was freed, nothing else was. -/
def Balanced (before after : Heap) : Prop := after.live.Perm before.live

/-- Objects of the kinds `ks`, in the order of their allocation, stay allocated, everything else as before. -/
def Lost (ks : List Kind) (before after : Heap) : Prop :=
  ∃ lost : List (Nat × Kind), lost.map Prod.snd = ks ∧ (lost.map Prod.fst).Nodup ∧ after.live.Perm (lost ++ before.live)

/-- The program ends normally: nothing was freed that was not allocated. -/
def Ends (r : Res Heap) (h : Heap) (ks : List Kind) : Prop := ∃ h', r = .ok h' ∧ HeapOk h' ∧ Lost ks h h'

theorem lost_nil {h h' : Heap} : Lost [] h h' ↔ Balanced h h' := by
  constructor
  · rintro ⟨l, h1, _, h3⟩
    cases l with
    | nil => exact h3
    | cons => cases h1
  · intro hb
    exact ⟨[], rfl, List.Pairwise.nil, hb⟩

theorem balanced_iff {ks : List Kind} {h h' : Heap} (hl : Lost ks h h') : Balanced h h' ↔ ks = [] := by
  obtain ⟨l, h1, _, h3⟩ := hl
  constructor
  · intro hb
    have he := (h3.symm.trans hb).length_eq
    rw [List.length_append] at he
    have : l = [] := List.length_eq_zero_iff.1 (by omega)
    rw [← h1, this]
    rfl
  · rintro rfl
    exact lost_nil.1 ⟨l, h1, ‹_›, h3⟩

/-! ### Any class -/

theorem fits_iff (n : Nat) (as : List Act) : fits n as ↔ ∀ a ∈ as, fit n a := by
  induction as with
  | nil => unfold fits; simp
  | cons a as ih =>
    unfold fits
    rw [ih]
    simp

theorem leaks_append (a b : List Act) : leaks (a ++ b) = leaks a ++ leaks b := by
  induction a with
  | nil => rw [leaks]; rfl
  | cons x a ih => rw [List.cons_append, leaks, leaks, ih, List.append_assoc]

theorem leaks_members (l : List Nat) (f : Nat → Nat) : leaks (l.map fun i => Act.member (f i)) = [] := by
  induction l with
  | nil => rw [List.map_nil, leaks]
  | cons x l ih => rw [List.map_cons, leaks, leak, ih]; rfl

theorem leaks_calls {α : Type} (f : α → List Act) (l : List α) :
    leaks (l.map fun x => .call (f x)) = l.flatMap fun x => leaks (f x) := by
  induction l with
  | nil => rw [List.map_nil, leaks]; rfl
  | cons x l ih => rw [List.map_cons, leaks, leak, ih]; rfl

theorem calls_ok : ∀ (bodies : List (List Act)) (s : St) (rest : List (Nat × Kind)), Inv s rest → s.locals = [] →
    (∀ b ∈ bodies, fits s.members.length b) →
    ∃ s', runs (bodies.map .call) s = .ok s' ∧ s'.locals = [] ∧ Eff s s' rest (bodies.flatMap leaks)
  | [], s, rest, hi, hs, _ => ⟨s, by rw [List.map_nil, runs], hs, rfl, [], rfl, hi⟩
  | b :: bs, s, rest, hi, hs, hf => by
    obtain ⟨s1, e1, ⟨l1, lost1, k1, i1⟩, hloc⟩ := run_ok (.call b) s rest hi (by unfold fit; exact hf b (List.mem_cons_self ..))
    obtain ⟨s2, e2, hs2, l2, lost2, k2, i2⟩ := calls_ok bs s1 (lost1 ++ rest) i1 ((hloc b rfl).trans hs)
      (fun x hx => by rw [l1]; exact hf x (List.mem_cons_of_mem _ hx))
    refine ⟨s2, ?_, hs2, l2.trans l1, lost1 ++ lost2, ?_, i2.ok, ?_⟩
    · rw [List.map_cons, runs, e1]
      exact e2
    · rw [List.map_append, k1, k2, leak]
      rfl
    · refine i2.perm.trans ?_
      refine List.Perm.append_left _ (List.Perm.append_left _ ?_)
      rw [← List.append_assoc]
      exact List.Perm.append_right _ List.perm_append_comm

/-- Construction with given guards, calls, destruction. -/
theorem life_aux (init : List Act) (bodies : List (List Act)) (gs : List Guard) (hg : owned gs = []) (h : Heap)
    (ok : HeapOk h) (hi : fits gs.length init) (hc : ∀ b ∈ bodies, fits gs.length b) (h0 : leaks init = []) :
    Ends (do
      let s ← runs [.call init] ⟨h, gs, []⟩
      let s ← runs (bodies.map .call) s
      drops s.members s.heap) h (bodies.flatMap leaks) := by
  have inv0 : Inv ⟨h, gs, []⟩ h.live := ⟨ok, by rw [hg]; exact List.Perm.refl _⟩
  obtain ⟨s1, e1, hs1, l1, lost1, k1, i1⟩ := calls_ok [init] ⟨h, gs, []⟩ h.live inv0 rfl
    (fun b hb => by rw [List.mem_singleton.1 hb]; exact hi)
  have k1' : lost1 = [] := by
    rw [List.flatMap_cons, h0] at k1
    exact List.map_eq_nil_iff.1 k1
  subst k1'
  obtain ⟨s2, e2, hs2, l2, lost2, k2, i2⟩ := calls_ok bodies s1 _ i1 hs1 (fun b hb => by rw [l1]; exact hc b hb)
  have p2 := i2.perm
  rw [hs2, owned_nil, List.nil_append] at p2
  obtain ⟨h3, e3, ok3, p3⟩ := drops_ok s2.members i2.ok p2
  refine ⟨h3, ?_, ok3, lost2, k2, ?_, p3⟩
  · have e1' : runs [.call init] ⟨h, gs, []⟩ = .ok s1 := e1
    rw [e1']
    show (runs (bodies.map .call) s1 >>= fun s => drops s.members s.heap) = _
    rw [e2]
    exact e3
  · have hn : ((lost2 ++ h.live).map Prod.fst).Nodup := (p3.map Prod.fst).nodup_iff.1 ok3.nodup
    rw [List.map_append] at hn
    exact (List.nodup_append.1 hn).1

theorem fits_range (n : Nat) (f : Nat → Nat) (m : Nat) (h : ∀ i < n, f i < m) :
    fits m ((List.range n).map fun i => Act.member (f i)) := by
  rw [fits_iff]
  intro a ha
  obtain ⟨i, hi, rfl⟩ := List.mem_map.1 ha
  unfold fit
  exact h i (List.mem_range.1 hi)

/-- The life of an object of any class whose methods reset no member: it ends normally and loses exactly the leaks of its
calls. -/
theorem life {α : Type} (c : Cls α) (calls : List α) (h : Heap) (ok : HeapOk h)
    (hf : ∀ x, fits c.guards.length (c.method x)) :
    Ends (c.life calls h) h (calls.flatMap fun x => leaks (c.method x)) := by
  have := life_aux ((List.range c.guards.length).map Act.member) (calls.map c.method) (c.guards.map Guard.empty)
    (owned_empty _) h ok
    (by rw [List.length_map]; exact fits_range _ id _ (fun i hi => hi))
    (fun b hb => by
      rw [List.length_map]
      obtain ⟨x, _, rfl⟩ := List.mem_map.1 hb
      exact hf x)
    (leaks_members _ id)
  rw [List.flatMap_map, List.map_map] at this
  exact this

/-! ### The classes -/

theorem leaks_replicate (n : Nat) (k : Kind) : leaks (List.replicate n (.reset k)) = [] := by
  induction n with
  | zero => rw [List.replicate_zero, leaks]
  | succ n ih => rw [List.replicate_succ, leaks, leak, ih]; rfl

theorem fits_replicate (m n : Nat) (k : Kind) : fits m (List.replicate n (.reset k)) := by
  rw [fits_iff]
  intro a ha
  rw [List.eq_of_mem_replicate ha]
  unfold fit
  trivial

theorem leaks_flatten (n : Nat) (k : Kind) : leaks (List.replicate n [Act.reset k, Act.reset k]).flatten = [] := by
  induction n with
  | zero => rw [List.replicate_zero, List.flatten_nil, leaks]
  | succ n ih => rw [List.replicate_succ, List.flatten_cons, leaks_append, ih]; simp [leaks, leak]

theorem fits_flatten (m n : Nat) (k : Kind) : fits m (List.replicate n [Act.reset k, Act.reset k]).flatten := by
  rw [fits_iff]
  intro a ha
  obtain ⟨l, hl, ha⟩ := List.mem_flatten.1 ha
  rw [List.eq_of_mem_replicate hl] at ha
  simp only [List.mem_cons, List.not_mem_nil, or_false, or_self] at ha
  subst ha
  unfold fit
  trivial

theorem fits_append (m : Nat) (a b : List Act) : fits m (a ++ b) ↔ fits m a ∧ fits m b := by
  simp only [fits_iff, List.mem_append]
  exact ⟨fun h => ⟨fun x hx => h x (.inl hx), fun x hx => h x (.inr hx)⟩,
    fun h x hx => hx.elim (h.1 x) (h.2 x)⟩

/-- `OLE`: every object is freed, whatever is computed. -/
theorem C61_ole_partial (bits : Nat) (calls : List Unit) (h : Heap) (ok : HeapOk h) :
    ∃ h', (ole bits).life calls h = .ok h' ∧ Balanced h h' := by
  obtain ⟨h', e, _, hl⟩ := life (ole bits) calls h ok (fun _ => by simp [ole, oleCompute, fits, fit])
  refine ⟨h', e, (balanced_iff hl).2 ?_⟩
  simp [ole, oleCompute, leaks, leak]

/-- `E2F`: every object is freed. -/
theorem C61_e2f_partial (bits : Nat) (calls : List E2FCall) (h : Heap) (ok : HeapOk h) :
    ∃ h', (e2f bits).life calls h = .ok h' ∧ Balanced h h' := by
  obtain ⟨h', e, _, hl⟩ := life (e2f bits) calls h ok (fun x => by
    cases x <;> simp [e2f, e2fOpen, e2fOffline, e2fOnline, oleCompute, fits, fit, List.replicate])
  refine ⟨h', e, (balanced_iff hl).2 ?_⟩
  rw [List.flatMap_eq_nil_iff]
  intro x _
  cases x <;> simp [e2f, e2fOpen, e2fOffline, e2fOnline, oleCompute, leaks, leak, List.replicate]

/-- `HandShakeOffline` and `PRFProver`: every object is freed. -/
theorem C61_keys_partial (h : Heap) (ok : HeapOk h) :
    (∃ h', handShakeOffline.life [] h = .ok h' ∧ Balanced h h') ∧ ∃ h', prfProver.life [] h = .ok h' ∧ Balanced h h' := by
  refine ⟨?_, ?_⟩
  · obtain ⟨h', e, _, hl⟩ := life handShakeOffline [] h ok (fun x => nomatch x)
    exact ⟨h', e, (balanced_iff hl).2 rfl⟩
  · obtain ⟨h', e, _, hl⟩ := life prfProver [] h ok (fun x => nomatch x)
    exact ⟨h', e, (balanced_iff hl).2 rfl⟩

/-- What a call of `HandShake` loses. -/
def hsLoses : HSCall → List Kind
  | .primusVA => [.point]
  | .clientVB => [.point]
  | .clientVBt => [.point, .point]
  | .pmsOffline => []
  | .pmsOnline => []

/-- `HandShake`: nothing is freed twice; a point is lost at every `compute_primus_VA` and `compute_client_VB`, two at the
second form of the latter, and nothing else. -/
theorem C61_handshake (bits : Nat) (calls : List HSCall) (h : Heap) (ok : HeapOk h) :
    Ends ((handShake bits).life calls h) h (calls.flatMap hsLoses) := by
  have := life (handShake bits) calls h ok (fun x => by
    cases x <;> simp [handShake, e2fOffline, e2fOnline, e2fOpen, oleCompute, fits, fit, List.replicate])
  have he : (fun x => leaks ((handShake bits).method x)) = hsLoses := by
    funext x
    cases x <;> simp [handShake, hsLoses, e2fOffline, e2fOnline, e2fOpen, oleCompute, leaks, leak, List.replicate]
  rwa [he] at this

/-- `PostRecord`: ALICE loses a point at every `reveal_pms`, BOB nothing. -/
theorem C61_postRecord (calls : List Bool) (h : Heap) (ok : HeapOk h) :
    Ends (postRecord.life calls h) h (calls.flatMap fun bob => if bob then [] else [.point]) := by
  have := life postRecord calls h ok (fun x => by cases x <;> simp [postRecord, fits, fit])
  have he : (fun x => leaks (postRecord.method x)) = fun bob => if bob then [] else [Kind.point] := by
    funext x
    cases x <;> simp [postRecord, leaks, leak]
  rwa [he] at this

/-- What a call of `PedersenComm` loses. -/
def pcLoses : PCCall → List Kind
  | .openCheck => [.point]
  | .linearCombCom => [.point]
  | _ => []

/-- `PedersenComm`: a point is lost at every `open_check` and `linear_comb_com`, and nothing else. -/
theorem C61_pedersen (calls : List PCCall) (h : Heap) (ok : HeapOk h) :
    Ends (pedersen.life calls h) h (calls.flatMap pcLoses) := by
  have := life pedersen calls h ok (fun x => by
    cases x <;> simp [pedersen, openCheck, linearCombCom, linearCombRand, fits, fit])
  have he : (fun x => leaks (pedersen.method x)) = pcLoses := by
    funext x
    cases x <;> simp [pedersen, pcLoses, openCheck, linearCombCom, linearCombRand, leaks, leak]
  rwa [he] at this

/-- What a call of `ComConv` loses: the sender `comm_r`, `com_y` and the points of `linear_comb_com` and `open_check`; the
receiver `r` and `comm_r`. -/
def ccLoses : CCCall → List Kind
  | .send _ _ => [.point, .point, .point, .point]
  | .recv _ _ => [.bn, .point]

theorem leaks_send (n bs : Nat) : leaks (comSend n bs) = ccLoses (.send n bs) := by
  simp [comSend, vec, convert, leaks_append, leaks_replicate, leaks, leak, maskKey, commitDelta, oleCompute, linearCombCom,
    openCheck, ccLoses]

theorem leaks_recv (n bs : Nat) : leaks (comRecv n bs) = ccLoses (.recv n bs) := by
  simp [comRecv, vec, convert, leaks_append, leaks_replicate, leaks_flatten, leaks, leak, maskMac, oleCompute,
    linearCombRand, openMacs, ccLoses]

/-- `ComConv`: nothing is freed twice and every call loses the same, whatever the number of keys and the batch size. -/
theorem C61_comConv (bits : Nat) (calls : List CCCall) (h : Heap) (ok : HeapOk h) :
    Ends (comConvLife bits calls h) h (calls.flatMap ccLoses) := by
  have := life_aux ((List.range (comConvGuards bits).length).map fun i => Act.member (i + 2))
    (calls.map ccMethod)
    (Guard.empty .bn :: Guard.empty .bn :: (comConvGuards bits).map Guard.empty)
    (owned_empty (.bn :: .bn :: comConvGuards bits)) h ok
    (by
      refine fits_range _ (fun i => i + 2) _ (fun i hi => ?_)
      simp only [List.length_cons, List.length_map]
      omega)
    (fun b hb => by
      obtain ⟨x, _, rfl⟩ := List.mem_map.1 hb
      cases x with
      | send n bs =>
        simp [ccMethod, comSend, vec, convert, fits_append, fits_replicate, fits, fit, maskKey, commitDelta, oleCompute,
          linearCombCom, openCheck]
      | recv n bs =>
        simp [ccMethod, comRecv, vec, convert, fits_append, fits_replicate, fits_flatten, fits, fit, maskMac, oleCompute,
          linearCombRand, openMacs])
    (leaks_members _ fun i => i + 2)
  rw [List.flatMap_map, List.map_map] at this
  have he : (fun x => leaks (ccMethod x)) = ccLoses := by
    funext x
    cases x with
    | send n bs => exact leaks_send n bs
    | recv n bs => exact leaks_recv n bs
  rw [he] at this
  exact this

/-- So the property fails: one conversion, on either side, one Diffie-Hellman step or one check of an opening is enough. -/
theorem C61_not_balanced (bits n bs : Nat) (h : Heap) (ok : HeapOk h) :
    (∃ h', comConvLife bits [.send n bs] h = .ok h' ∧ ¬ Balanced h h')
      ∧ (∃ h', comConvLife bits [.recv n bs] h = .ok h' ∧ ¬ Balanced h h')
      ∧ (∃ h', (handShake bits).life [.primusVA] h = .ok h' ∧ ¬ Balanced h h')
      ∧ (∃ h', (handShake bits).life [.clientVB] h = .ok h' ∧ ¬ Balanced h h')
      ∧ (∃ h', postRecord.life [false] h = .ok h' ∧ ¬ Balanced h h')
      ∧ ∃ h', pedersen.life [.openCheck] h = .ok h' ∧ ¬ Balanced h h' := by
  have key : ∀ {r : Res Heap} {ks : List Kind}, Ends r h ks → ks ≠ [] → ∃ h', r = .ok h' ∧ ¬ Balanced h h' := by
    rintro r ks ⟨h', e, _, hl⟩ hk
    exact ⟨h', e, fun hb => hk ((balanced_iff hl).1 hb)⟩
  exact ⟨key (C61_comConv bits _ h ok) (by simp [ccLoses]), key (C61_comConv bits _ h ok) (by simp [ccLoses]),
    key (C61_handshake bits _ h ok) (by simp [hsLoses]), key (C61_handshake bits _ h ok) (by simp [hsLoses]),
    key (C61_postRecord _ h ok) (by simp), key (C61_pedersen _ h ok) (by simp [pcLoses])⟩

/-- The number of objects lost grows without bound with the number of conversions of one `ComConv`. -/
theorem C61_unbounded (bits n bs k : Nat) (h : Heap) (ok : HeapOk h) :
    ∃ h', comConvLife bits (List.replicate k (.send n bs)) h = .ok h' ∧ h'.live.length = h.live.length + 4 * k := by
  obtain ⟨h', e, _, l, hk, _, hp⟩ := C61_comConv bits (List.replicate k (.send n bs)) h ok
  refine ⟨h', e, ?_⟩
  have h1 : l.length = 4 * k := by
    rw [← List.length_map (f := Prod.snd), hk]
    clear hk e
    induction k with
    | zero => rfl
    | succ k ih =>
      rw [List.replicate_succ, List.flatMap_cons, List.length_append, ih]
      show 4 + 4 * k = _
      omega
  rw [hp.length_eq, List.length_append, h1]
  omega

/-- The hypothesis is met by the empty heap and by one with objects of the caller. -/
example : HeapOk ⟨0, []⟩ ∧ HeapOk ⟨9, [(7, .group), (3, .bn), (4, .point)]⟩ :=
  ⟨⟨List.Pairwise.nil, fun _ h => by cases h⟩, ⟨by decide, by decide⟩⟩

/-- A run with all members: what is left of a conversion of three keys in batches of two are four points. -/
example : ((comConvLife 3 [.send 3 2, .recv 3 2] ⟨1, [(0, .group)]⟩).toOption.map fun h => h.live.map Prod.snd)
    = some [.point, .bn, .point, .point, .point, .point, .group] := by decide +kernel

end Verif.Props.Ownership
