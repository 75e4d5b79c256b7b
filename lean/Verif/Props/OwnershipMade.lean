import Verif.Props.Ownership

/-! # C61: how many OpenSSL objects are allocated in the life of an object -/

namespace Verif.Props.Ownership
open Verif.Model Own Integer
open Verif.Lemmas.Own

mutual
/-- The objects that an action allocates. -/
def made : Act → Nat
  | .ctor _ => 1
  | .reset _ => 1
  | .raw _ => 1
  | .member _ => 1
  | .call body => mades body
/-- The objects that a body allocates. -/
def mades : List Act → Nat
  | [] => 0
  | a :: as => made a + mades as
end

theorem drop_next {g : Guard} {h h' : Heap} (e : g.drop h = .ok h') : h'.next = h.next := by
  unfold Guard.drop at e
  split at e
  · unfold Heap.free at e
    split at e
    · cases e; rfl
    · cases e
  · cases e; rfl

theorem reset_next {g g' : Guard} {h h' : Heap} {p : Nat} (e : g.reset h p = .ok (g', h')) : h'.next = h.next := by
  simp only [Guard.reset, bind, Except.bind] at e
  cases hd : g.drop h with
  | error x => rw [hd] at e; cases e
  | ok a => rw [hd] at e; cases e; exact drop_next hd

theorem drops_next : ∀ (gs : List Guard) {h h' : Heap}, drops gs h = .ok h' → h'.next = h.next
  | [], h, h', e => by cases e; rfl
  | g :: gs, h, h', e => by
    simp only [drops, bind, Except.bind] at e
    cases hd : g.drop h with
    | error x => rw [hd] at e; cases e
    | ok a => rw [hd] at e; rw [drops_next gs e, drop_next hd]

mutual
theorem run_next : ∀ (a : Act) {s s' : St}, run a s = .ok s' → s'.heap.next = s.heap.next + made a
  | .ctor k, s, s', e => by simp only [run] at e; cases e; rfl
  | .reset k, s, s', e => by
    simp only [run, bind, Except.bind] at e
    split at e
    · cases e
    · rename_i x hx
      cases e
      have := reset_next (g' := x.1) (h' := x.2) hx
      simpa [Heap.new, made] using this
  | .raw k, s, s', e => by simp only [run] at e; cases e; rfl
  | .member i, s, s', e => by
    simp only [run] at e
    split at e
    · cases e
    · simp only [bind, Except.bind] at e
      split at e
      · cases e
      · rename_i x hx
        cases e
        have := reset_next (g' := x.1) (h' := x.2) hx
        simpa [Heap.new, made] using this
  | .call body, s, s', e => by
    simp only [run, bind, Except.bind] at e
    split at e
    · cases e
    · rename_i t ht
      split at e
      · cases e
      · rename_i x hx
        cases e
        have := runs_next body ht
        rw [made, ← this]
        exact drops_next _ hx
theorem runs_next : ∀ (as : List Act) {s s' : St}, runs as s = .ok s' → s'.heap.next = s.heap.next + mades as
  | [], s, s', e => by simp only [runs] at e; cases e; rfl
  | a :: as, s, s', e => by
    simp only [runs, bind, Except.bind] at e
    split at e
    · cases e
    · rename_i t ht
      rw [runs_next as e, run_next a ht, mades, Nat.add_assoc]
end

theorem mades_append (a b : List Act) : mades (a ++ b) = mades a + mades b := by
  induction a with
  | nil => simp [mades]
  | cons x a ih => rw [List.cons_append, mades, mades, ih, Nat.add_assoc]

theorem mades_replicate (n : Nat) (k : Kind) : mades (List.replicate n (.reset k)) = n := by
  induction n with
  | zero => simp [mades]
  | succ n ih => rw [List.replicate_succ, mades, made, ih, Nat.add_comm]

theorem mades_pairs (n : Nat) (k : Kind) : mades (List.replicate n [Act.reset k, Act.reset k]).flatten = 2 * n := by
  induction n with
  | zero => simp [mades]
  | succ n ih => rw [List.replicate_succ, List.flatten_cons, mades_append, ih]; simp [mades, made]; omega

theorem mades_members (l : List Nat) (f : Nat → Nat) : mades (l.map fun i => Act.member (f i)) = l.length := by
  induction l with
  | nil => simp [mades]
  | cons x l ih => rw [List.map_cons, mades, made, ih, List.length_cons, Nat.add_comm]

theorem mades_calls {α : Type} (f : α → List Act) (l : List α) :
    mades (l.map fun x => .call (f x)) = (l.map fun x => mades (f x)).sum := by
  induction l with
  | nil => simp [mades]
  | cons x l ih => rw [List.map_cons, mades, made, ih, List.map_cons, List.sum_cons]

/-- From the constructor to the destructor: the members and what the calls make. -/
theorem life_next {init : List Act} {bodies : List Act} {gs : List Guard} {h h' : Heap} (e : (do
      let s ← runs [.call init] ⟨h, gs, []⟩
      let s ← runs bodies s
      drops s.members s.heap) = .ok h') : h'.next = h.next + mades init + mades bodies := by
  simp only [bind, Except.bind] at e
  split at e
  · cases e
  · rename_i s hs
    split at e
    · cases e
    · rename_i t ht
      rw [drops_next _ e, runs_next _ ht, runs_next _ hs]
      simp [mades, made]

theorem cls_next {α : Type} (c : Cls α) (calls : List α) {h h' : Heap} (e : c.life calls h = .ok h') :
    h'.next = h.next + c.guards.length + (calls.map fun x => mades (c.method x)).sum := by
  have := life_next (init := (List.range c.guards.length).map Act.member) (bodies := calls.map fun x => .call (c.method x))
    (gs := c.guards.map Guard.empty) e
  rw [this, mades_calls]
  have hm : mades ((List.range c.guards.length).map Act.member) = _ := mades_members (List.range c.guards.length) id
  rw [hm, List.length_range]

/-- What the calls of `E2F` allocate. -/
def e2fCost : E2FCall → Nat
  | .openValues => 1
  | .offline => 9
  | .online => 7

/-- What the calls of `HandShake` allocate. -/
def hsCost : HSCall → Nat
  | .primusVA => 1
  | .clientVB => 1
  | .clientVBt => 2
  | .pmsOffline => 9
  | .pmsOnline => 9

/-- What the calls of `ComConv` allocate; `⌈n / bs⌉` batches. -/
def ccCost : CCCall → Nat
  | .send n bs => 2 * n + 2 * ((n + bs - 1) / bs) + 19
  | .recv n bs => 4 * n + 3 * ((n + bs - 1) / bs) + 18

theorem mades_send (n bs : Nat) : mades (comSend n bs) = ccCost (.send n bs) := by
  show _ = 2 * n + 2 * chunkLen n bs + 19
  simp only [comSend, vec, convert, mades_append, mades_replicate, mades, made, maskKey, commitDelta, oleCompute, linearCombCom, openCheck]
  omega

theorem mades_recv (n bs : Nat) : mades (comRecv n bs) = ccCost (.recv n bs) := by
  show _ = 4 * n + 3 * chunkLen n bs + 18
  simp only [comRecv, vec, convert, mades_append, mades_replicate, mades_pairs, mades, made, maskMac, oleCompute, linearCombRand, openMacs]
  omega

/-- **C61**.  In the whole life of an object, for all sequences of calls, so many objects are allocated: a number is never used
twice, so the next number says how many there were.  With `C61_handshake` and `C61_comConv` it is known how many of them are freed. -/
theorem C61_made (bits : Nat) (h : Heap) (ok : HeapOk h) :
    (∀ calls, ∃ h', (ole bits).life calls h = .ok h' ∧ h'.next = h.next + (bits + 2) + 4 * calls.length) ∧
    (∀ calls, ∃ h', (e2f bits).life calls h = .ok h' ∧ h'.next = h.next + (bits + 9) + (calls.map e2fCost).sum) ∧
    (∀ calls, ∃ h', (handShake bits).life calls h = .ok h' ∧ h'.next = h.next + (bits + 16) + (calls.map hsCost).sum) ∧
    ∀ calls, ∃ h', comConvLife bits calls h = .ok h' ∧ h'.next = h.next + (2 * bits + 4) + (calls.map ccCost).sum := by
  refine ⟨fun calls => ?_, fun calls => ?_, fun calls => ?_, fun calls => ?_⟩
  · obtain ⟨h', e, -⟩ := C61_ole_partial bits calls h ok
    refine ⟨h', e, ?_⟩
    rw [cls_next _ _ e]
    have : ∀ l : List Unit, (l.map fun x => mades ((ole bits).method x)).sum = 4 * l.length := by
      intro l
      induction l with
      | nil => rfl
      | cons x l ih => rw [List.map_cons, List.sum_cons, ih]; simp [ole, oleCompute, mades, made]; omega
    rw [this]
    simp [ole, oleGuards]
  · obtain ⟨h', e, -⟩ := C61_e2f_partial bits calls h ok
    refine ⟨h', e, ?_⟩
    have he : (fun x => mades ((e2f bits).method x)) = e2fCost := by
      funext x
      cases x <;> simp [e2f, e2fOpen, e2fOffline, e2fOnline, oleCompute, mades, made, e2fCost, List.replicate]
    rw [cls_next _ _ e, he]
    simp [e2f, e2fGuards, oleGuards]
  · obtain ⟨h', e, -⟩ := C61_handshake bits calls h ok
    refine ⟨h', e, ?_⟩
    have he : (fun x => mades ((handShake bits).method x)) = hsCost := by
      funext x
      cases x <;> simp [handShake, e2fOpen, e2fOffline, e2fOnline, oleCompute, mades, made, hsCost, List.replicate]
    rw [cls_next _ _ e, he]
    simp [handShake, e2fGuards, oleGuards]
  · obtain ⟨h', e, -⟩ := C61_comConv bits calls h ok
    refine ⟨h', e, ?_⟩
    have he : (fun x => mades (ccMethod x)) = ccCost := by
      funext x
      cases x with
      | send n bs => exact mades_send n bs
      | recv n bs => exact mades_recv n bs
    have := life_next e
    rw [this, mades_calls, he, mades_members, List.length_range]
    simp [comConvGuards, oleGuards]
    omega

/-- What the calls of `PedersenComm` allocate. -/
def pcCost : PCCall → Nat
  | .commit => 0
  | _ => 1

/-- **C61**.  The same for the classes without an `OLE`. -/
theorem C61_made_small (h : Heap) (ok : HeapOk h) :
    (∃ h', handShakeOffline.life [] h = .ok h' ∧ h'.next = h.next + 2) ∧ (∃ h', prfProver.life [] h = .ok h' ∧ h'.next = h.next + 3) ∧
    (∀ calls, ∃ h', pedersen.life calls h = .ok h' ∧ h'.next = h.next + 2 + (calls.map pcCost).sum) ∧
    ∀ calls, ∃ h', postRecord.life calls h = .ok h' ∧ h'.next = h.next + 1 + (calls.map fun bob => if bob then 0 else 2).sum := by
  refine ⟨?_, ?_, fun calls => ?_, fun calls => ?_⟩
  · obtain ⟨h', e, -⟩ := (C61_keys_partial h ok).1
    exact ⟨h', e, cls_next _ _ e⟩
  · obtain ⟨h', e, -⟩ := (C61_keys_partial h ok).2
    exact ⟨h', e, cls_next _ _ e⟩
  · obtain ⟨h', e, -⟩ := C61_pedersen calls h ok
    refine ⟨h', e, ?_⟩
    have he : (fun x => mades (pedersen.method x)) = pcCost := by
      funext x
      cases x <;> simp [pedersen, openCheck, linearCombCom, linearCombRand, mades, made, pcCost]
    rw [cls_next _ _ e, he]
    rfl
  · obtain ⟨h', e, -⟩ := C61_postRecord calls h ok
    refine ⟨h', e, ?_⟩
    have he : (fun x => mades (postRecord.method x)) = fun bob => if bob then 0 else 2 := by
      funext x
      cases x <;> simp [postRecord, mades, made]
    rw [cls_next _ _ e, he]
    rfl

/-- A conversion of three keys in batches of two, beside a group of the caller. -/
example : ∃ h', comConvLife 3 [.send 3 2] ⟨1, [(0, .group)]⟩ = .ok h' ∧ h'.next = 40 := by
  obtain ⟨h', e, hn⟩ := (C61_made 3 ⟨1, [(0, .group)]⟩ ⟨by decide, by decide⟩).2.2.2 [.send 3 2]
  exact ⟨h', e, by simpa [ccCost] using hn⟩

/-- Three openings of the pre-master secret, two of them by ALICE, beside the same group. -/
example : ∃ h', postRecord.life [false, true, false] ⟨1, [(0, .group)]⟩ = .ok h' ∧ h'.next = 6 := by
  obtain ⟨h', e, hn⟩ := (C61_made_small ⟨1, [(0, .group)]⟩ ⟨by decide, by decide⟩).2.2.2 [false, true, false]
  exact ⟨h', e, by simpa using hn⟩

/-- **C61**.  Of the objects that `k` conversions of one `ComConv` allocate, all but four for each are freed: the share that is lost does not
depend on the number of keys. -/
theorem C61_freed (bits n bs k : Nat) (h : Heap) (ok : HeapOk h) :
    ∃ h', comConvLife bits (List.replicate k (.send n bs)) h = .ok h' ∧
      (h'.next - h.next) - (h'.live.length - h.live.length) = 2 * bits + 4 + k * (2 * n + 2 * ((n + bs - 1) / bs) + 15) := by
  obtain ⟨h', e, hl⟩ := C61_unbounded bits n bs k h ok
  obtain ⟨h'', e', hn⟩ := (C61_made bits h ok).2.2.2 (List.replicate k (.send n bs))
  rw [e] at e'
  cases e'
  refine ⟨h', e, ?_⟩
  rw [List.map_replicate, List.sum_replicate_nat, ccCost] at hn
  rw [hn, hl]
  generalize 2 * n + 2 * ((n + bs - 1) / bs) = c
  rw [Nat.mul_add k c 19, Nat.mul_add k c 15]
  omega

/-- Two conversions of three keys in batches of two. -/
example : ∃ h', comConvLife 3 (List.replicate 2 (.send 3 2)) ⟨1, [(0, .group)]⟩ = .ok h' ∧ (h'.next - 1) - (h'.live.length - 1) = 60 :=
  C61_freed 3 3 2 2 ⟨1, [(0, .group)]⟩ ⟨by decide, by decide⟩

end Verif.Props.Ownership
