import Verif.Lemmas.Arrays

/-! C66: arrays made with `new[]` are released exactly once, by `delete[]`. -/

namespace Verif.Props.Arrays
open Verif.Model Verif.Model.Arrays Verif.Lemmas.Arrays

/-- A possible heap: the arrays in memory have different names, and those that the object keeps are among them, once each. -/
def Heap (m : Mem) : Prop :=
  m.live.Nodup ∧ (∀ p ∈ m.live, p < m.next) ∧ (ids m).Nodup ∧ ∀ p ∈ ids m, p ∈ m.live

/-- The function returns, and the memory is as before. -/
def Restores (c : Code) : Prop :=
  ∀ m, Heap m → ∃ m', run c m = .ok m' ∧ m'.live.Perm m.live ∧ m'.kept = m.kept ∧ Heap m'

/-- The function ends in `delete` of an array. -/
def Mismatch (c : Code) : Prop := ∀ m, Heap m → run c m = .error (.ub "delete of memory of new[]")

/-- A heap with nothing of the object: `n` arrays of others. -/
def others (n : Nat) : Mem := ⟨List.range n, n, fun _ => []⟩

theorem heap_others (n : Nat) : Heap (others n) :=
  ⟨List.nodup_range, fun _ h => List.mem_range.1 h, List.nodup_nil, fun _ h => by cases h⟩

theorem heap_inv {m : Mem} (h : Heap m) : ∃ L, Inv L m := by
  obtain ⟨h1, h2, h3, h4⟩ := h
  refine ⟨m.live.filter (fun p => p ∉ ids m), ?_, h1, h2⟩
  rw [List.perm_ext_iff_of_nodup h1]
  · intro a
    simp only [List.mem_append, List.mem_filter, decide_eq_true_eq]
    constructor
    · intro ha
      by_cases hi : a ∈ ids m
      · exact .inl hi
      · exact .inr ⟨ha, hi⟩
    · rintro (ha | ha)
      · exact h4 a ha
      · exact ha.1
  · rw [List.nodup_append]
    refine ⟨h3, h1.filter _, ?_⟩
    intro a ha b hb e
    simp only [List.mem_filter, decide_eq_true_eq] at hb
    exact hb.2 (e ▸ ha)

theorem inv_heap {L : List Nat} {m : Mem} (h : Inv L m) : Heap m := by
  obtain ⟨hp, hn, hl⟩ := h
  have := hp.nodup_iff.1 hn
  exact ⟨hn, hl, (List.nodup_append.1 this).1, fun p hi => hp.mem_iff.2 (List.mem_append_left _ hi)⟩

theorem plain_restores {c : Code} (h : Plain c) : Restores c := by
  intro m hm
  obtain ⟨L, hL⟩ := heap_inv hm
  obtain ⟨m', h1, h2, h3⟩ := run_ok c h.1 h.2.1 hL
  have hk : m'.kept = m.kept := by
    funext d
    obtain ⟨x, hx, hx'⟩ := h3 d
    rw [h.2.2 d] at hx'
    rw [hx, List.map_eq_nil_iff.1 hx', List.append_nil]
  refine ⟨m', h1, ?_, hk, inv_heap h2⟩
  have : ids m' = ids m := by rw [ids, ids, hk]
  exact h2.1.trans (by rw [this]; exact hL.1.symm)

theorem plain_one : Plain oneArray := Plain.done.loc
theorem plain_two : Plain twoArrays := Plain.done.loc.loc
theorem plain_compare : Plain compareTag := (plain_one.call Plain.done).loc
theorem plain_sha (n : Nat) : Plain (shaUpdate n) := (Plain.calls (fun _ => plain_one) n Plain.done).loc
theorem plain_hmac (n k : Nat) : Plain (hmacCode n k) := ((plain_sha n).call ((plain_sha k).call Plain.done)).loc
theorem plain_init (l : Option Nat) : Plain (hmacInit l) := by
  cases l with
  | none => exact Plain.done
  | some n => exact ((plain_sha n).call Plain.done).loc.call Plain.done
theorem plain_rounds {h : Nat → Code} (hh : ∀ i, Plain (h i)) (n : Nat) : Plain (roundsPhashCode h n) :=
  (Plain.calls hh _ Plain.done).loc.loc.loc
theorem plain_prf {h : Nat → Code} (hh : ∀ i, Plain (h i)) (zk : Bool) (b : Nat) : Plain (prfCode true zk h b) := by
  exact ((plain_rounds hh _).call Plain.done).loc

/-- **C66**.  The functions of the utilities, of the checks and of the records release what they allocate. -/
theorem C66_small (n : Nat) :
    Restores oneArray ∧ Restores twoArrays ∧ Restores compareTag ∧ Restores proveLast ∧ Restores (finalizeCode n) :=
  ⟨plain_restores plain_one, plain_restores plain_two, plain_restores plain_compare,
   plain_restores (plain_one.call Plain.done.loc), plain_restores (Plain.calls (fun _ => plain_compare) n Plain.done).loc⟩

/-- **C66**.  So do SHA-256, HMAC and the PRF without opened values: for all numbers of blocks and of rounds. -/
theorem C66_hash (a b : Nat → Nat) (n k : Nat) (l : Option Nat) :
    Restores (shaUpdate n) ∧ Restores (hmacCode n k) ∧ Restores (hmacInit l) ∧
    Restores (phashCode (fun i => hmacCode (a i) (b i)) n) ∧ Restores (roundsPhashCode (fun i => hmacCode (a i) (b i)) n) ∧
    Restores (offPhashCode (fun i => hmacCode (a i) (b i)) n) :=
  ⟨plain_restores (plain_sha n), plain_restores (plain_hmac n k), plain_restores (plain_init l),
   plain_restores (Plain.calls (fun _ => plain_hmac _ _) _ Plain.done).loc.loc,
   plain_restores (plain_rounds (fun _ => plain_hmac _ _) n),
   plain_restores (Plain.calls (fun _ => plain_hmac _ _) _ Plain.done).loc.loc⟩

/-- **C66**.  With `ENABLE_ROUNDS_OPT` every derivation of the handshake and every proof of it releases what it allocates. -/
theorem C66_rounds (a b : Nat → Nat) (l : Option Nat) (zk : Bool) :
    let h := fun i => hmacCode (a i) (b i)
    Restores (masterKeyCode true zk h oneArray (hmacInit l)) ∧
    Restores (extendedKeyCode (prfCode true zk h 384) oneArray (hmacInit l)) ∧
    Restores (expansionCode true zk h (hmacInit l)) ∧ Restores (finishedCode true zk h) := by
  intro h
  have hh : ∀ i, Plain (h i) := fun i => plain_hmac _ _
  exact ⟨plain_restores (plain_one.call ((plain_init l).call ((plain_prf hh zk 384).call Plain.done)).loc).loc,
    plain_restores (plain_one.call ((plain_init l).call ((plain_prf hh zk 384).call Plain.done))).loc,
    plain_restores ((plain_init l).call ((plain_prf hh zk 320).call Plain.done)).loc,
    plain_restores ((plain_prf hh zk 96).call Plain.done)⟩

example : ∃ m', run (masterKeyCode true false (fun _ => hmacCode 3 2) oneArray (hmacInit (some 2))) (others 4) = .ok m' ∧
    m'.live.Perm [0, 1, 2, 3] := by
  obtain ⟨m', h, h', -⟩ := (C66_rounds (fun _ => 3) (fun _ => 2) (some 2) false).1 _ (heap_others 4)
  exact ⟨m', h, h'⟩

/-! ### Without `ENABLE_ROUNDS_OPT` -/

theorem optUpdate_locals (f : First) (k : Nat) : Locals (shaOptUpdate f k) := by
  have h : Locals (calls (fun _ => oneArray) k .done) := (Plain.calls (fun _ => plain_one) k Plain.done).1
  have h1 := plain_one.1
  cases f <;> simp [shaOptUpdate, Locals, h, h1]

theorem optUpdate_noPop (f : First) (k : Nat) : NoPop (shaOptUpdate f k) := by
  have h : NoPop (calls (fun _ => oneArray) k .done) := (Plain.calls (fun _ => plain_one) k Plain.done).2.1
  have h1 := plain_one.2.1
  cases f <;> simp [shaOptUpdate, NoPop, h, h1]

theorem optHmac_locals (f : First) (k n : Nat) : Locals (optHmacCode f k n) :=
  ⟨rfl, optUpdate_locals f k, rfl, (plain_sha n).1, trivial⟩

theorem optHmac_noPop (f : First) (k n : Nat) : NoPop (optHmacCode f k n) :=
  ⟨optUpdate_noPop f k, (plain_sha n).2.1, trivial⟩

theorem rounds_guarded {h : Nat → Code} (hh : ∀ i, Locals (h i)) (zk : Bool) : ∀ n, Guarded (optPhashRounds h zk n)
  | 0 => trivial
  | n + 1 => by
    cases zk <;>
      exact ⟨guarded_of_locals (hh _), (fun e => nomatch e), guarded_of_locals (hh _), rounds_guarded hh _ n⟩

theorem rounds_noPop {h : Nat → Code} (hh : ∀ i, NoPop (h i)) (zk : Bool) : ∀ n, NoPop (optPhashRounds h zk n)
  | 0 => trivial
  | n + 1 => by cases zk <;> exact ⟨hh _, hh _, rounds_noPop hh _ n⟩

theorem opt_parts {h : Nat → Code} (hl : ∀ i, Locals (h i)) (hn : ∀ i, NoPop (h i)) (zk : Bool) (b : Nat) :
    Guarded (prfCode false zk h b) ∧ NoPop (prfCode false zk h b) ∧ ¬Locals (prfCode false zk h b) := by
  refine ⟨⟨(fun e => nomatch e), ⟨(fun e => nomatch e), (fun e => nomatch e), (fun e => nomatch e), (fun e => nomatch e),
    rounds_guarded hl zk _⟩, trivial⟩, ⟨rounds_noPop hn zk _, trivial⟩, ?_⟩
  intro h
  exact nomatch h.2.1.1

theorem mismatch_of {c : Code} (h : Guarded c ∧ NoPop c ∧ ¬Locals c) : Mismatch c := by
  intro m hm
  obtain ⟨L, hL⟩ := heap_inv hm
  exact run_one c h.1 h.2.1 h.2.2 hL

/-- **C66**, first disagreement.  Without `ENABLE_ROUNDS_OPT` every call of `opt_compute` releases its local arrays by `delete`, for all
keys, seeds, lengths and both modes of the flags, so every derivation of the handshake and every proof of `PRFProver` has undefined
behaviour when it returns. -/
theorem C66_opt_compute (f : Nat → First) (a b : Nat → Nat) (zk : Bool) (bitlen : Nat) :
    Mismatch (prfCode false zk (fun i => optHmacCode (f i) (a i) (b i)) bitlen) :=
  mismatch_of (opt_parts (fun _ => optHmac_locals _ _ _) (fun _ => optHmac_noPop _ _ _) zk bitlen)

/-- **C66**.  The same for the functions of the handshake and of `PRFProver`. -/
theorem C66_handshake (f : Nat → First) (a b : Nat → Nat) (l : Option Nat) (zk add : Bool) :
    let h := fun i => optHmacCode (f i) (a i) (b i)
    let am := if add then oneArray else .done
    Mismatch (masterKeyCode false zk h am (hmacInit l)) ∧
    Mismatch (extendedKeyCode (prfCode false zk h 384) am (hmacInit l)) ∧
    Mismatch (expansionCode false zk h (hmacInit l)) ∧ Mismatch (finishedCode false zk h) := by
  intro h am
  have ha : Plain am := by
    cases add
    · exact Plain.done
    · exact plain_one
  have hi := plain_init l
  have p := fun b => opt_parts (h := h) (fun _ => optHmac_locals _ _ _) (fun _ => optHmac_noPop _ _ _) zk b
  have ga := guarded_of_locals ha.1
  have gi := guarded_of_locals hi.1
  refine ⟨mismatch_of ⟨?_, ?_, ?_⟩, mismatch_of ⟨?_, ?_, ?_⟩, mismatch_of ⟨?_, ?_, ?_⟩, mismatch_of ⟨?_, ?_, ?_⟩⟩
  · exact ⟨(fun e => nomatch e), ga, (fun e => nomatch e), gi, (p 384).1, trivial⟩
  · exact ⟨ha.2.1, hi.2.1, (p 384).2.1, trivial⟩
  · exact fun x => (p 384).2.2 x.2.2.2.2.1
  · exact ⟨(fun e => nomatch e), ga, gi, (p 384).1, trivial⟩
  · exact ⟨ha.2.1, hi.2.1, (p 384).2.1, trivial⟩
  · exact fun x => (p 384).2.2 x.2.2.2.1
  · exact ⟨(fun e => nomatch e), gi, (p 320).1, trivial⟩
  · exact ⟨hi.2.1, (p 320).2.1, trivial⟩
  · exact fun x => (p 320).2.2 x.2.2.1
  · exact ⟨(p 96).1, trivial⟩
  · exact ⟨(p 96).2.1, trivial⟩
  · exact fun x => (p 96).2.2 x.1

example : run (prfCode false false (fun _ => optHmacCode .opened 1 1) 384) (others 2) = .error (.ub "delete of memory of new[]") :=
  C66_opt_compute _ _ _ _ _ _ (heap_others 2)

/-- The calls of `opt_update` on one SHA-256 object. -/
def updates : List (First × Nat) → Code
  | [] => .done
  | (f, k) :: l => .call (shaOptUpdate f k) (updates l)

theorem updates_ok : ∀ l, Locals (updates l) ∧ NoPop (updates l)
  | [] => ⟨trivial, trivial⟩
  | (f, k) :: l => ⟨⟨optUpdate_locals f k, (updates_ok l).1⟩, optUpdate_noPop f k, (updates_ok l).2⟩

theorem optUpdate_added (d : Bool) (f : First) (k : Nat) :
    added d (shaOptUpdate f k) = match d, f with | false, .opened => [.one] | _, _ => [] := by
  have h : added d (calls (fun _ => oneArray) k .done) = [] := (Plain.calls (fun _ => plain_one) k Plain.done).2.2 d
  have h1 := plain_one.2.2 d
  cases f <;> cases d <;> simp [shaOptUpdate, added, h, h1]

theorem updates_added (d : Bool) : ∀ l, (∀ g ∈ added d (updates l), g = .one) ∧
    (d = false → (∃ x ∈ l, x.1 = .opened) → added d (updates l) ≠ []) ∧ ((∀ x ∈ l, x.1 ≠ .opened) → added d (updates l) = [])
  | [] => ⟨fun _ h => (nomatch h), fun _ ⟨_, h, _⟩ => (nomatch h), fun _ => rfl⟩
  | (f, k) :: l => by
    obtain ⟨h1, h2, h3⟩ := updates_added d l
    simp only [updates, added, optUpdate_added]
    refine ⟨?_, ?_, ?_⟩
    · intro g hg
      rcases List.mem_append.1 hg with hg | hg
      · cases d <;> cases f <;> simp_all
      · exact h1 g hg
    · rintro rfl ⟨x, hx, hx'⟩
      rcases List.mem_cons.1 hx with e | e
      · subst e; simp only at hx'; subst hx'; simp
      · have := h2 rfl ⟨x, e, hx'⟩
        intro he
        exact this (List.append_eq_nil_iff.1 he).2
    · intro hf
      have h4 := h3 (fun x hx => hf x (List.mem_cons_of_mem _ hx))
      have h5 := hf (f, k) (by simp)
      cases d <;> cases f <;> simp_all

/-- **C66**, second disagreement.  An object of SHA-256 (or HMAC) that has opened an inner state is destroyed by `delete` of an array. -/
theorem C66_sha_object (l : List (First × Nat)) (n : Nat) (ho : ∃ x ∈ l, x.1 = .opened) :
    ∃ m, run (updates l) (others n) = .ok m ∧ destroy m = .error (.ub "delete of memory of new[]") := by
  have hi : Inv (List.range n) (others n) := ⟨List.Perm.refl _, (heap_others n).1, (heap_others n).2.1⟩
  obtain ⟨m, h1, h2, h3⟩ := run_ok _ (updates_ok l).1 (updates_ok l).2 hi
  refine ⟨m, h1, destroy_one h2 ?_ ?_⟩
  · intro d x hx
    obtain ⟨y, hy, hy'⟩ := h3 d
    rw [hy] at hx
    have : x.2 ∈ added d (updates l) := by
      rw [← hy']
      exact List.mem_map_of_mem (by simpa [others] using hx)
    rw [(updates_added d l).1 _ this]
    exact fun e => nomatch e
  · obtain ⟨y, hy, hy'⟩ := h3 false
    have hne := (updates_added false l).2.1 rfl ho
    have : y ≠ [] := by
      rintro rfl
      exact hne hy'.symm
    obtain ⟨x, y', rfl⟩ := List.exists_cons_of_ne_nil this
    refine ⟨false, x, by rw [hy]; simp, ?_⟩
    refine (updates_added false l).1 _ ?_
    rw [← hy']; simp

/-- **C66**.  An object that has opened none is destroyed without a trace. -/
theorem C66_sha_object_unopened (l : List (First × Nat)) (n : Nat) (ho : ∀ x ∈ l, x.1 ≠ .opened) :
    ∃ m m', run (updates l) (others n) = .ok m ∧ destroy m = .ok m' ∧ m'.live.Perm (List.range n) := by
  have hi : Inv (List.range n) (others n) := ⟨List.Perm.refl _, (heap_others n).1, (heap_others n).2.1⟩
  obtain ⟨m, h1, h2, h3⟩ := run_ok _ (updates_ok l).1 (updates_ok l).2 hi
  obtain ⟨m', h4, h5, -⟩ := destroy_ok h2 (by
    intro d x hx
    obtain ⟨y, hy, hy'⟩ := h3 d
    rw [(updates_added d l).2.2 ho] at hy'
    rw [hy, List.map_eq_nil_iff.1 hy'] at hx
    cases hx)
  exact ⟨m, m', h1, h4, h5⟩

example : ∃ m, run (updates [(.opened, 1), (.reused, 2)]) (others 3) = .ok m ∧ destroy m = .error (.ub "delete of memory of new[]") :=
  C66_sha_object _ 3 ⟨(.opened, 1), by simp, rfl⟩

/-! ### Leak -/

/-- **C66**, third disagreement.  Every call of `integer_to_block(block*, Integer&)` leaves one array. -/
theorem C66_integer_to_block (n : Nat) (m : Mem) :
    ∃ l, run (calls (fun _ => integerToBlocksCode) n .done) m = .ok { m with live := l ++ m.live, next := m.next + n } ∧
      l.length = n := by
  induction n generalizing m with
  | zero => exact ⟨[], rfl, rfl⟩
  | succ n ih =>
    obtain ⟨l, h1, h2⟩ := ih { m with live := m.next :: m.live, next := m.next + 1 }
    refine ⟨l ++ [m.next], ?_, by simp [h2]⟩
    have : run integerToBlocksCode m = .ok { m with live := m.next :: m.live, next := m.next + 1 } := rfl
    simp only [calls, run, this, okBind, h1]
    simp [Nat.add_assoc, Nat.add_comm 1 n]

example : run (calls (fun _ => integerToBlocksCode) 2 .done) (others 1) = .ok ⟨[2, 1, 0], 3, fun _ => []⟩ := rfl

/-! ### The records -/

/-- The container that an operation on an `AEAD` object takes from, and the one it adds to. -/
def takes : Op → Option Bool
  | .prove s => some s
  | _ => none

def adds : Op → Option Bool
  | .encrypt s => some s
  | .decrypt s _ => some s
  | .checkFinished _ => some false
  | .prove _ => none

/-- Every proof has its record: `n` counts the records that wait, public and secret. -/
def fits : List Op → (Bool → Nat) → Prop
  | [], _ => True
  | o :: os, n =>
    (∀ s, takes o = some s → 0 < n s) ∧
    fits os (fun d => n d + (if adds o = some d then 1 else 0) - (if takes o = some d then 1 else 0))

theorem prove_ok {L : List Nat} {m : Mem} (h : Inv L m) {s : Bool} {p : Nat} {k : List (Nat × Guard)}
    (hk : m.kept s = (p, .arr) :: k) :
    ∃ m', run (proveCode s) m = .ok m' ∧ Inv L m' ∧ ∀ d, m'.kept d = if d = s then k else m.kept d := by
  have hc : Plain (.call oneArray (.call oneArray (.call (if s then oneArray else twoArrays) .done))) := by
    refine plain_one.call (plain_one.call (Plain.call ?_ Plain.done))
    cases s
    · exact plain_two
    · exact plain_one
  have hf : Plain (if s then .loc .arr .done else .done) := by
    cases s
    · exact Plain.done
    · exact plain_one
  obtain ⟨m1, h1, h2, h3⟩ := run_ok _ hc.1 hc.2.1 h
  have hk1 : m1.kept = m.kept := by
    funext d
    obtain ⟨x, hx, hx'⟩ := h3 d
    rw [hc.2.2 d] at hx'
    rw [hx, List.map_eq_nil_iff.1 hx', List.append_nil]
  have hk1' := congrFun hk1 s
  rw [hk] at hk1'
  obtain ⟨m2, h4, h5, h6, -⟩ := inv_release (inv_pop h2 hk1')
  obtain ⟨m3, h7, h8, h9⟩ := run_ok _ hf.1 hf.2.1 h5
  refine ⟨m3, ?_, h8, ?_⟩
  · have e : run (proveCode s) m = (run (.call oneArray (.call oneArray (.call (if s then oneArray else twoArrays) .done))) m >>=
        run (.pop s (if s then .loc .arr .done else .done))) := by
      simp only [proveCode, run]
      rcases run oneArray m with e | a
      · rfl
      · simp only [okBind]
        rcases run oneArray a with e | b
        · rfl
        · simp only [okBind]
          rcases run (if s then oneArray else twoArrays) b with e | c
          · rfl
          · rfl
    rw [e, h1, okBind]
    simp only [run, hk1', h4, okBind, h7]
  · intro d
    obtain ⟨x, hx, hx'⟩ := h9 d
    rw [hf.2.2 d] at hx'
    rw [hx, List.map_eq_nil_iff.1 hx', List.append_nil, h6, hk1]

theorem prove_empty {L : List Nat} {m : Mem} (h : Inv L m) {s : Bool} (hk : m.kept s = []) :
    run (proveCode s) m = .error (.error "assert: the container is not empty") := by
  have hc : Plain (if s then oneArray else twoArrays) := by
    cases s
    · exact plain_two
    · exact plain_one
  obtain ⟨m1, h1, h2, h3⟩ := run_ok _ plain_one.1 plain_one.2.1 h
  obtain ⟨m2, h4, h5, h6⟩ := run_ok _ plain_one.1 plain_one.2.1 h2
  obtain ⟨m3, h7, -, h8⟩ := run_ok _ hc.1 hc.2.1 h5
  have e3 : m3.kept s = [] := by
    obtain ⟨x, hx, hx'⟩ := h3 s
    obtain ⟨y, hy, hy'⟩ := h6 s
    obtain ⟨z, hz, hz'⟩ := h8 s
    rw [plain_one.2.2] at hx' hy'
    rw [hc.2.2] at hz'
    rw [hz, hy, hx, hk, List.map_eq_nil_iff.1 hx', List.map_eq_nil_iff.1 hy', List.map_eq_nil_iff.1 hz']
    rfl
  simp only [proveCode, run, h1, h4, h7, okBind, e3]

theorem add_ok {o : Op} {s : Bool} (ho : adds o = some s) :
    Locals o.code ∧ NoPop o.code ∧ ∀ d, added d o.code = if d = s then [.arr] else [] := by
  cases o with
  | encrypt t =>
    cases ho
    exact ⟨by simp [Op.code, encryptCode, Locals, oneArray, twoArrays], by simp [Op.code, encryptCode, NoPop, oneArray, twoArrays],
      fun d => by simp [Op.code, encryptCode, added, oneArray, twoArrays]⟩
  | decrypt t b =>
    cases ho
    cases b <;>
    exact ⟨by simp [Op.code, decryptCode, Locals, oneArray, twoArrays], by simp [Op.code, decryptCode, NoPop, oneArray, twoArrays],
      fun d => by simp [Op.code, decryptCode, added, oneArray, twoArrays]⟩
  | checkFinished b =>
    cases ho
    cases b <;>
    exact ⟨by simp [Op.code, checkFinishedCode, decryptCode, Locals, oneArray, twoArrays],
      by simp [Op.code, checkFinishedCode, decryptCode, NoPop, oneArray, twoArrays],
      fun d => by simp [Op.code, checkFinishedCode, decryptCode, added, oneArray, twoArrays]⟩
  | prove t => cases ho

theorem op_ok {L : List Nat} {m : Mem} (h : Inv L m) (ha : AllArr m) (o : Op) (ht : ∀ s, takes o = some s → 0 < (m.kept s).length) :
    ∃ m', run o.code m = .ok m' ∧ Inv L m' ∧ AllArr m' ∧
      ∀ d, (m'.kept d).length = (m.kept d).length + (if adds o = some d then 1 else 0) - (if takes o = some d then 1 else 0) := by
  cases hA : adds o with
  | some s =>
    have hT : takes o = none := by cases o <;> first | rfl | cases hA
    obtain ⟨hl, hn, hd⟩ := add_ok hA
    obtain ⟨m', h1, h2, h3⟩ := run_ok _ hl hn h
    refine ⟨m', h1, h2, ?_, ?_⟩
    · intro d x hx
      obtain ⟨y, hy, hy'⟩ := h3 d
      rw [hy] at hx
      rcases List.mem_append.1 hx with hx | hx
      · exact ha d x hx
      · have : x.2 ∈ added d o.code := by rw [← hy']; exact List.mem_map_of_mem hx
        rw [hd d] at this
        by_cases e : d = s
        · rw [if_pos e] at this; exact List.mem_singleton.1 this
        · rw [if_neg e] at this; cases this
    · intro d
      obtain ⟨y, hy, hy'⟩ := h3 d
      have hlen : y.length = (added d o.code).length := by rw [← hy', List.length_map]
      rw [hy, List.length_append, hlen, hd d, hT]
      by_cases e : d = s
      · subst e; simp
      · have : ¬(s = d) := fun x => e x.symm
        simp [e, this]
  | none =>
    cases o with
    | prove s =>
      cases hk : m.kept s with
      | nil => have := ht s rfl; rw [hk] at this; exact absurd this (by simp)
      | cons x k =>
        obtain ⟨p, g⟩ := x
        have hg : g = .arr := ha s (p, g) (by rw [hk]; simp)
        subst hg
        obtain ⟨m', h1, h2, h3⟩ := prove_ok h hk
        refine ⟨m', h1, h2, ?_, ?_⟩
        · intro d x hx
          rw [h3 d] at hx
          by_cases e : d = s
          · rw [if_pos e] at hx; exact ha s x (by rw [hk]; exact List.mem_cons_of_mem _ hx)
          · rw [if_neg e] at hx; exact ha d x hx
        · intro d
          rw [h3 d]
          by_cases e : d = s
          · subst e; simp [takes, hk]
          · have : ¬(s = d) := fun x => e x.symm
            simp [takes, e, this]
    | _ => cases hA

theorem runOps_ok (os : List Op) : ∀ {L : List Nat} {m : Mem}, Inv L m → AllArr m →
    (fits os (fun d => (m.kept d).length) → ∃ m', runOps os m = .ok m' ∧ Inv L m' ∧ AllArr m') ∧
    (¬fits os (fun d => (m.kept d).length) → runOps os m = .error (.error "assert: the container is not empty")) := by
  induction os with
  | nil => intro L m h ha; exact ⟨fun _ => ⟨m, rfl, h, ha⟩, fun hf => (hf trivial).elim⟩
  | cons o os ih =>
    intro L m h ha
    by_cases ht : ∀ s, takes o = some s → 0 < (m.kept s).length
    · obtain ⟨m', h1, h2, h3, h4⟩ := op_ok h ha o ht
      have he : (fun d => (m'.kept d).length) = fun d => (m.kept d).length + (if adds o = some d then 1 else 0) -
          (if takes o = some d then 1 else 0) := funext h4
      obtain ⟨i1, i2⟩ := ih h2 h3
      rw [he] at i1 i2
      refine ⟨fun hf => ?_, fun hf => ?_⟩
      · obtain ⟨m'', h5, h6⟩ := i1 hf.2
        exact ⟨m'', by simp only [runOps, h1, okBind, h5], h6⟩
      · have := i2 (fun x => hf ⟨ht, x⟩)
        simp only [runOps, h1, okBind, this]
    · refine ⟨fun hf => (ht hf.1).elim, fun _ => ?_⟩
      cases o with
      | prove s =>
        have hk : m.kept s = [] := by
          cases hk : m.kept s with
          | nil => rfl
          | cons x k =>
            exfalso
            apply ht
            intro t e
            cases e
            rw [hk]; simp
        have : run (Op.prove s).code m = .error (.error "assert: the container is not empty") := prove_empty h hk
        simp only [runOps, this, errBind]
      | _ => exact (ht (fun s e => nomatch e)).elim

/-- **C66**.  An `AEAD` object releases all it has allocated exactly once, whatever records were encrypted, decrypted and proved before
its destruction; the memory of others is untouched. -/
theorem C66_aead (os : List Op) (n : Nat) (hf : fits os (fun _ => 0)) :
    ∃ m m', runOps os (others n) = .ok m ∧ destroy m = .ok m' ∧ m'.live.Perm (List.range n) := by
  have hi : Inv (List.range n) (others n) := ⟨List.Perm.refl _, (heap_others n).1, (heap_others n).2.1⟩
  have ha : AllArr (others n) := fun d x hx => by cases hx
  obtain ⟨m, h1, h2, h3⟩ := (runOps_ok os hi ha).1 hf
  obtain ⟨m', h4, h5, -⟩ := destroy_ok h2 h3
  exact ⟨m, m', h1, h4, h5⟩

/-- **C66**.  A proof without a record is the only failure, and it is an assertion. -/
theorem C66_aead_refused (os : List Op) (n : Nat) (hf : ¬fits os (fun _ => 0)) :
    runOps os (others n) = .error (.error "assert: the container is not empty") := by
  have hi : Inv (List.range n) (others n) := ⟨List.Perm.refl _, (heap_others n).1, (heap_others n).2.1⟩
  exact (runOps_ok os hi (fun d x hx => by cases hx)).2 hf

example : fits [.encrypt false, .checkFinished true, .encrypt true, .prove true, .prove false, .decrypt true false] (fun _ => 0) := by
  simp [fits, takes, adds]
example : ¬fits [.encrypt true, .prove false] (fun _ => 0) := by
  simp [fits, takes, adds]

/-! ### The buffers of a party -/

/-- **C66**.  However often `set_batch_size` is called, a party has two arrays, and its destructor releases them. -/
theorem C66_party (k n : Nat) :
    ∃ m m', run (.call partyNew (calls (fun _ => setBatch) k .done)) (others n) = .ok m ∧ m.live.length = n + 2 ∧
      destroy m = .ok m' ∧ m'.live.Perm (List.range n) := by
  have step : ∀ {m : Mem} {p q : Nat}, Inv (List.range n) m → m.kept = (fun d => if d then [(q, .arr)] else [(p, .arr)]) →
      ∃ m' p' q', run setBatch m = .ok m' ∧ Inv (List.range n) m' ∧
        m'.kept = (fun d => if d then [(q', .arr)] else [(p', .arr)]) := by
    intro m p q h hk
    obtain ⟨m1, h1, h2, h3, -⟩ := inv_release (inv_pop h (c := false) (p := p) (g := .arr) (k := []) (by rw [hk]; rfl))
    obtain ⟨m2, h4, h5, h6, -⟩ := inv_release (inv_pop h2 (c := true) (p := q) (g := .arr) (k := []) (by rw [h3, hk]; rfl))
    have i1 := inv_keep h5 false .arr
    have i2 := inv_keep i1 true .arr
    refine ⟨_, m2.next, m2.next + 1, ?_, i2, ?_⟩
    · have e0 : m.kept false = [(p, .arr)] := by rw [hk]; rfl
      have e1 : m1.kept true = [(q, .arr)] := by rw [h3, hk]; rfl
      simp only [setBatch, run, e0, h1, okBind, e1, h4]
    · funext d
      cases d <;> simp [h6, h3, Mem.make]
  have all : ∀ k {m : Mem} {p q : Nat}, Inv (List.range n) m → m.kept = (fun d => if d then [(q, .arr)] else [(p, .arr)]) →
      ∃ m' p' q', run (calls (fun _ => setBatch) k .done) m = .ok m' ∧ Inv (List.range n) m' ∧
        m'.kept = (fun d => if d then [(q', .arr)] else [(p', .arr)]) := by
    intro k
    induction k with
    | zero => intro m p q h hk; exact ⟨m, p, q, rfl, h, hk⟩
    | succ k ih =>
      intro m p q h hk
      obtain ⟨m1, p1, q1, h1, h2, h3⟩ := step h hk
      obtain ⟨m2, p2, q2, h4, h5, h6⟩ := ih h2 h3
      exact ⟨m2, p2, q2, by simp only [calls, run, h1, okBind, h4], h5, h6⟩
  have hi : Inv (List.range n) (others n) := ⟨List.Perm.refl _, (heap_others n).1, (heap_others n).2.1⟩
  have i2 := inv_keep (inv_keep hi false .arr) true .arr
  obtain ⟨m, p, q, h1, h2, h3⟩ := all k (p := n) (q := n + 1) i2 (by
    funext d
    cases d <;> simp [others, Mem.make])
  obtain ⟨m', h4, h5, -⟩ := destroy_ok h2 (by
    intro d x hx
    rw [h3] at hx
    cases d
    · exact (List.mem_singleton.1 hx) ▸ rfl
    · exact (List.mem_singleton.1 hx) ▸ rfl)
  refine ⟨m, m', ?_, ?_, h4, h5⟩
  · simp only [partyNew, run, okBind]
    exact h1
  · rw [h2.1.length_eq, ids, h3]
    simp

end Verif.Props.Arrays
