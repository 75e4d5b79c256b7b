import Verif.Model.Switch
import Mathlib.Data.List.Nodup

/-!
C38: the life cycle of the backends.
-/

namespace Verif.Props.Switch
open Verif.Model Verif.Model.Switch

/-! ### Successful sessions -/

/-- The backend a call selects in a session, given the one selected before. -/
def select (offline : Bool) (k : Kind) : Op → Kind
  | .toZk => .zk
  | .toGc => if offline then .online else .gc
  | .toOnline => .online
  | _ => k

/-- The calls of a session between setup and finalize: switches, uses, the offline-online transition only in that mode, the
zero-knowledge synchronisation only while that backend is selected. -/
def Valid (offline : Bool) : Kind → List Op → Prop
  | _, [] => True
  | k, o :: l => (match o with
      | .toZk | .toGc | .use => True
      | .toOnline => offline = true
      | .sync => k = .zk
      | .setup .. | .finalize => False) ∧ Valid offline (select offline k o) l

/-- The backend selected at the end. -/
def selected (offline : Bool) (k : Kind) (l : List Op) : Kind := l.foldl (select offline) k

/-- The backend selected by setup. -/
def first (offline : Bool) : Kind := if offline then .offline else .gc

/-- What setup leaves, up to the current selection. -/
def Ready (offline : Bool) (n : Nat) (base : List (Nat × Kind)) (offC offP : Ptr) (k : Kind) (s : St) : Prop :=
  let g : Kind := if offline then .online else .gc
  s.enableOffline = offline ∧ s.ks = some n ∧ s.enc = some (n + 1) ∧ s.zkC = some (n + 2) ∧ s.zkP = some (n + 3)
  ∧ s.gcC = some (n + 4) ∧ s.gcP = some (n + 5)
  ∧ s.next = (if offline then n + 8 else n + 6)
  ∧ (s.offC = if offline then some (n + 6) else offC) ∧ (s.offP = if offline then some (n + 7) else offP)
  ∧ s.heap = (if offline then [(n + 7, .offline), (n + 6, .offline)] else [])
      ++ [(n + 5, g), (n + 4, g), (n + 3, .zk), (n + 2, .zk), (n + 1, .file), (n, .file)] ++ base
  ∧ ((k = .zk ∧ s.circ = s.zkC ∧ s.prot = s.zkP) ∨ (k = g ∧ s.circ = s.gcC ∧ s.prot = s.gcP)
      ∨ (offline = true ∧ k = .offline ∧ s.circ = s.offC ∧ s.prot = s.offP))

theorem setup_ok (offline : Bool) (s : St) :
    ∃ s', setup offline none s = .ok (s', false) ∧ Ready offline s.next s.heap s.offC s.offP (first offline) s' := by
  cases offline
  · exact ⟨_, rfl, rfl, rfl, rfl, rfl, rfl, rfl, rfl, rfl, rfl, rfl, rfl, .inr (.inl ⟨rfl, rfl, rfl⟩)⟩
  · exact ⟨_, rfl, rfl, rfl, rfl, rfl, rfl, rfl, rfl, rfl, rfl, rfl, rfl, .inr (.inr ⟨rfl, rfl, rfl, rfl⟩)⟩

theorem ready_kind {offline n base oc op k s} (h : Ready offline n base oc op k s) :
    s.kind s.circ = some k ∧ s.kind s.prot = some k := by
  obtain ⟨-, -, -, h1, h2, h3, h4, -, h5, h6, h7, h8⟩ := h
  rcases h8 with ⟨rfl, h8, h9⟩ | ⟨rfl, h8, h9⟩ | ⟨rfl, rfl, h8, h9⟩
  · rw [h8, h9, h1, h2]; cases offline <;> simp [St.kind, h7]
  · rw [h8, h9, h3, h4]; cases offline <;> simp [St.kind, h7]
  · rw [h8, h9, h5, h6]; simp [St.kind, h7]

theorem ready_step {offline n base oc op k s} (h : Ready offline n base oc op k s) (o : Op) (hv : Valid offline k [o]) :
    ∃ s', step o s = .ok s' ∧ Ready offline n base oc op (select offline k o) s' := by
  have hk := ready_kind h
  obtain ⟨h0, h01, h02, h1, h2, h3, h4, h41, h5, h6, h7, h8⟩ := h
  cases o with
  | setup => exact absurd hv.1 (by simp)
  | finalize => exact absurd hv.1 (by simp)
  | toZk => exact ⟨_, rfl, h0, h01, h02, h1, h2, h3, h4, h41, h5, h6, h7, .inl ⟨rfl, rfl, rfl⟩⟩
  | toGc => exact ⟨_, rfl, h0, h01, h02, h1, h2, h3, h4, h41, h5, h6, h7, .inr (.inl ⟨rfl, rfl, rfl⟩)⟩
  | toOnline =>
    have ho : offline = true := hv.1
    subst ho
    refine ⟨toGc s, ?_, h0, h01, h02, h1, h2, h3, h4, h41, h5, h6, h7, .inr (.inl ⟨rfl, rfl, rfl⟩)⟩
    simp only [step, toOnline]
    rw [if_pos]
    simp [St.kind, h7, h5, h6, h3, h4]
  | sync =>
    have ho : k = .zk := hv.1
    subst ho
    refine ⟨s, ?_, h0, h01, h02, h1, h2, h3, h4, h41, h5, h6, h7, h8⟩
    simp only [step, sync]
    rw [if_pos hk.2]
  | use =>
    refine ⟨s, ?_, h0, h01, h02, h1, h2, h3, h4, h41, h5, h6, h7, h8⟩
    simp only [step, use]
    rw [if_pos (by rw [hk.1, hk.2]; simp)]

theorem run_cons (o : Op) (l : List Op) (s : St) : run (o :: l) s = (step o s).bind (run l) := rfl

theorem run_append (l l' : List Op) (s : St) : run (l ++ l') s = (run l s).bind (run l') := by
  induction l generalizing s with
  | nil => rfl
  | cons o l ih =>
    rw [List.cons_append, run_cons, run_cons]
    cases step o s with
    | error => rfl
    | ok s' => exact ih s'

theorem ready_run {offline n base oc op} (l : List Op) : ∀ {k s}, Ready offline n base oc op k s → Valid offline k l →
    ∃ s', run l s = .ok s' ∧ Ready offline n base oc op (selected offline k l) s' := by
  induction l with
  | nil => intro k s h _; exact ⟨s, rfl, h⟩
  | cons o l ih =>
    intro k s h hv
    obtain ⟨s1, h1, h2⟩ := ready_step h o ⟨hv.1, trivial⟩
    obtain ⟨s2, h3, h4⟩ := ih h2 hv.2
    exact ⟨s2, by rw [run_cons, h1]; exact h3, h4⟩

/-- C38: after a successful setup, in any state of the program, any sequence of switches and uses is defined, and the selected
backend is alive and the intended one. -/
theorem C38_select (offline : Bool) (s : St) (l : List Op) (hv : Valid offline (first offline) l) :
    ∃ s', run (.setup offline none :: l) s = .ok s'
      ∧ s'.kind s'.circ = some (selected offline (first offline) l) ∧ s'.kind s'.prot = some (selected offline (first offline) l) := by
  obtain ⟨s1, h1, h2⟩ := setup_ok offline s
  obtain ⟨s2, h3, h4⟩ := ready_run l h2 hv
  refine ⟨s2, ?_, ready_kind h4⟩
  rw [run_cons, step, h1]
  exact h3

/-- A session in offline mode from the start of the program. -/
example : ∃ s', run [.setup true none, .use, .toOnline, .toZk] init = .ok s' ∧ s'.kind s'.circ = some .zk := by
  obtain ⟨s', h1, h2⟩ := C38_select true init [.use, .toOnline, .toZk] (by simp [Valid])
  exact ⟨s', h1, by simpa [selected, select, first] using h2.1⟩

theorem finalize_ready {offline n base oc op k s} (h : Ready offline n base oc op k s) :
    ∃ s', finalize s = .ok s' ∧ s'.heap = base ∧ s'.next = s.next
      ∧ s'.gcC = s.gcC ∧ s'.gcP = s.gcP ∧ s'.zkC = s.zkC ∧ s'.zkP = s.zkP ∧ s'.offC = s.offC ∧ s'.offP = s.offP
      ∧ s'.enableOffline = s.enableOffline ∧ s'.ks = s.ks ∧ s'.enc = s.enc ∧ s'.circ = s.circ ∧ s'.prot = s.prot := by
  obtain ⟨h0, h01, h02, h1, h2, h3, h4, h41, h5, h6, h7, -⟩ := h
  obtain ⟨heap, next, circ, prot, gcC, gcP, zkC, zkP, offC, offP, en, ks, enc⟩ := s
  simp only at h0 h01 h02 h1 h2 h3 h4 h5 h6 h7
  subst h0 h01 h02 h1 h2 h3 h4 h5 h6 h7
  cases en <;> simp [finalize, St.delete, uninitFiles, bind, Except.bind]

/-- C38: a session frees exactly what it has created: every `delete` is of a live object, and afterwards the heap is what it
was before. -/
theorem C38_session (offline : Bool) (s : St) (l : List Op) (hv : Valid offline (first offline) l) :
    ∃ s', run (.setup offline none :: (l ++ [.finalize])) s = .ok s' ∧ s'.heap = s.heap := by
  obtain ⟨s1, h1, h2⟩ := setup_ok offline s
  obtain ⟨s2, h3, h4⟩ := ready_run l h2 hv
  obtain ⟨s3, h5, h6, -⟩ := finalize_ready h4
  refine ⟨s3, ?_, h6⟩
  rw [run_cons, step, h1]
  show run (l ++ [.finalize]) s1 = _
  rw [run_append, h3]
  show run [.finalize] s2 = _
  rw [run_cons, step, h5]
  rfl

/-- C38: any number of sessions one after the other, in any modes. -/
theorem C38_sessions (ss : List (Bool × List Op)) (hv : ∀ p ∈ ss, Valid p.1 (first p.1) p.2) :
    ∃ s', run (ss.flatMap fun p => .setup p.1 none :: (p.2 ++ [.finalize])) init = .ok s' ∧ s'.heap = [] := by
  suffices h : ∀ s : St, ∃ s', run (ss.flatMap fun p => .setup p.1 none :: (p.2 ++ [.finalize])) s = .ok s' ∧ s'.heap = s.heap from h init
  induction ss with
  | nil => intro s; exact ⟨s, rfl, rfl⟩
  | cons p ss ih =>
    intro s
    obtain ⟨s1, h1, h2⟩ := C38_session p.1 s p.2 (hv p (by simp))
    obtain ⟨s2, h3, h4⟩ := ih (fun q hq => hv q (by simp [hq])) s1
    refine ⟨s2, ?_, h4.trans h2⟩
    rw [List.flatMap_cons, run_append, h1]
    exact h3

example : Valid true (first true) [.use, .toOnline, .use, .toZk, .sync, .use, .toGc, .use]
    ∧ Valid false (first false) [.use, .toZk, .use, .sync, .toGc]
    ∧ selected true (first true) [.use, .toOnline, .use] = .online := by
  simp [Valid, first, select, selected]

/-! ### `finalize_protocol` in an arbitrary state -/

/-- The pointers that finalize deletes. -/
def owned (s : St) : List Nat :=
  ([s.gcC, s.gcP, s.zkC, s.zkP] ++ (if s.enableOffline then [s.offC, s.offP] else []) ++ [s.ks, s.enc]).filterMap id

/-- The identifiers alive. -/
def live (s : St) : List Nat := s.heap.map Prod.fst

/-- Deletes in sequence. -/
def deleteAll : List Ptr → St → Res St
  | [], s => .ok s
  | p :: ps, s => (s.delete p).bind (deleteAll ps)

theorem deleteAll_append (l l' : List Ptr) (s : St) : deleteAll (l ++ l') s = (deleteAll l s).bind (deleteAll l') := by
  induction l generalizing s with
  | nil => rfl
  | cons o l ih =>
    simp only [List.cons_append, deleteAll]
    cases s.delete o with
    | error => rfl
    | ok s' => exact ih s'

theorem delete_globals {s s' : St} {p : Ptr} (h : s.delete p = .ok s') : ∃ hp, s' = { s with heap := hp } := by
  cases p with
  | none => simp only [St.delete, Except.ok.injEq] at h; exact ⟨s.heap, h.symm⟩
  | some i =>
    simp only [St.delete] at h
    split at h
    · simp only [Except.ok.injEq] at h; exact ⟨_, h.symm⟩
    · simp at h

theorem eraseP_fst (l : List (Nat × Kind)) (i : Nat) : (l.eraseP (·.1 == i)).map Prod.fst = (l.map Prod.fst).erase i := by
  induction l with
  | nil => rfl
  | cons p l ih =>
    rw [List.eraseP_cons, List.map_cons, List.erase_cons]
    cases hb : (p.1 == i)
    · simp [ih]
    · simp

theorem deleteAll_iff (l : List Ptr) : ∀ (s : St), (live s).Nodup →
    ((∃ s', deleteAll l s = .ok s') ↔ (l.filterMap id).Nodup ∧ ∀ i ∈ l.filterMap id, i ∈ live s)
    ∧ ((∀ s', deleteAll l s = .ok s' → ∀ i, i ∈ live s' ↔ i ∈ live s ∧ i ∉ l.filterMap id))
    ∧ ((¬ ∃ s', deleteAll l s = .ok s') → ∃ w, deleteAll l s = .error (.ub w)) := by
  induction l with
  | nil =>
    intro s hs
    refine ⟨by simp [deleteAll], ?_, by simp [deleteAll]⟩
    intro s' h
    simp only [deleteAll, Except.ok.injEq] at h
    subst h; simp
  | cons p l ih =>
    intro s hs
    cases p with
    | none => exact ih s hs
    | some j =>
      by_cases hj : j ∈ live s
      · have ha : s.heap.any (·.1 == j) = true := by
          rw [List.any_eq_true]
          obtain ⟨p, hp, e⟩ := List.mem_map.mp hj
          exact ⟨p, hp, by simp [e]⟩
        have hd : deleteAll (some j :: l) s = deleteAll l { s with heap := s.heap.eraseP (·.1 == j) } := by
          simp only [deleteAll, St.delete, ha, if_true, Except.bind]
        have hl : live { s with heap := s.heap.eraseP (·.1 == j) } = (live s).erase j := eraseP_fst _ _
        obtain ⟨i1, i2, i3⟩ := ih { s with heap := s.heap.eraseP (·.1 == j) } (by rw [hl]; exact hs.erase j)
        rw [hd]
        rw [hl] at i1 i2
        refine ⟨i1.trans ?_, ?_, i3⟩
        · simp only [List.filterMap_cons, id, List.nodup_cons, List.mem_cons, forall_eq_or_imp, hj, true_and]
          simp only [List.Nodup.mem_erase_iff hs]
          constructor
          · rintro ⟨h1, h2⟩
            exact ⟨⟨fun h => (h2 j h).1 rfl, h1⟩, fun i h => (h2 i h).2⟩
          · rintro ⟨⟨h1, h2⟩, h3⟩
            exact ⟨h2, fun i h => ⟨fun e => h1 (e ▸ h), h3 i h⟩⟩
        · intro s' h i
          rw [i2 s' h i, List.Nodup.mem_erase_iff hs]
          simp only [List.filterMap_cons, id, List.mem_cons, not_or]
          tauto
      · have ha : s.heap.any (·.1 == j) = false := by
          rw [List.any_eq_false]
          intro p hp e
          exact hj (List.mem_map.mpr ⟨p, hp, by simpa using e⟩)
        have hd : deleteAll (some j :: l) s = .error (.ub "delete of a dangling pointer") := by
          simp [deleteAll, St.delete, ha, Except.bind]
        rw [hd]
        refine ⟨?_, by simp, fun _ => ⟨_, rfl⟩⟩
        simp only [List.filterMap_cons, id, List.mem_cons, forall_eq_or_imp, hj, false_and, and_false]
        simp

theorem bind_congr (s : St) (p : Ptr) (k k' : St → Res St) (h : ∀ hp, k { s with heap := hp } = k' { s with heap := hp }) :
    (s.delete p).bind k = (s.delete p).bind k' := by
  cases hd : s.delete p with
  | error => rfl
  | ok s' =>
    obtain ⟨hp, rfl⟩ := delete_globals hd
    exact h hp

theorem bind_ok' (r : Res St) : r = r.bind Except.ok := by cases r <;> rfl

theorem finalize_eq (s : St) : finalize s
    = deleteAll ([s.gcC, s.gcP, s.zkC, s.zkP] ++ (if s.enableOffline then [s.offC, s.offP] else []) ++ [s.ks, s.enc]) s := by
  obtain ⟨heap, next, circ, prot, gcC, gcP, zkC, zkP, offC, offP, en, ks, enc⟩ := s
  cases en
  · refine bind_congr _ _ _ _ fun _ => bind_congr _ _ _ _ fun _ => bind_congr _ _ _ _ fun _ => bind_congr _ _ _ _ fun _ => ?_
    refine bind_congr _ _ _ _ fun _ => ?_
    exact bind_ok' _
  · refine bind_congr _ _ _ _ fun _ => bind_congr _ _ _ _ fun _ => bind_congr _ _ _ _ fun _ => bind_congr _ _ _ _ fun _ => ?_
    simp only [if_true, bind]
    refine bind_congr _ _ _ _ fun _ => bind_congr _ _ _ _ fun _ => bind_congr _ _ _ _ fun _ => ?_
    exact bind_ok' _

theorem deleteAll_globals {s s' : St} {l : List Ptr} (h : deleteAll l s = .ok s') : ∃ hp, s' = { s with heap := hp } := by
  induction l generalizing s with
  | nil => simp only [deleteAll, Except.ok.injEq] at h; exact ⟨s.heap, h.symm⟩
  | cons p l ih =>
    simp only [deleteAll] at h
    cases h1 : s.delete p with
    | error => rw [h1] at h; simp [Except.bind] at h
    | ok s1 =>
      rw [h1] at h
      obtain ⟨_, rfl⟩ := delete_globals h1
      obtain ⟨hp, e⟩ := ih h
      exact ⟨hp, e⟩

/-- C38: in any state, finalize is defined exactly if the pointers it deletes are pairwise different and all alive; then it
frees exactly these objects; otherwise it is undefined behaviour. -/
theorem C38_finalize_iff (s : St) (hs : (live s).Nodup) :
    ((∃ s', finalize s = .ok s') ↔ (owned s).Nodup ∧ ∀ i ∈ owned s, i ∈ live s)
    ∧ (∀ s', finalize s = .ok s' → ∀ i, i ∈ live s' ↔ i ∈ live s ∧ i ∉ owned s)
    ∧ ((¬ ∃ s', finalize s = .ok s') → ∃ w, finalize s = .error (.ub w)) := by
  rw [finalize_eq]
  exact deleteAll_iff _ s hs

/-- C38 fails for a second call: finalize leaves its pointers dangling. -/
theorem C38_finalize_twice (s s' : St) (hs : (live s).Nodup) (hs' : (live s').Nodup) (h : finalize s = .ok s') (ho : owned s ≠ []) :
    ∃ w, finalize s' = .error (.ub w) := by
  have hg : owned s' = owned s := by
    rw [finalize_eq] at h
    obtain ⟨hp, rfl⟩ := deleteAll_globals h
    rfl
  apply (C38_finalize_iff s' hs').2.2
  rw [(C38_finalize_iff s' hs').1, hg]
  rintro ⟨-, h2⟩
  obtain ⟨i, hi⟩ := List.exists_mem_of_ne_nil _ ho
  exact (((C38_finalize_iff s hs).2.1 s' h i).mp (h2 i hi)).2 hi

/-- Any session followed by a second finalize is undefined. -/
theorem C38_session_twice (offline : Bool) (l : List Op) (hv : Valid offline (first offline) l) :
    ∃ w, run (.setup offline none :: (l ++ [.finalize, .finalize])) init = .error (.ub w) := by
  obtain ⟨s1, h1, h2⟩ := setup_ok offline init
  obtain ⟨s2, h3, h4⟩ := ready_run l h2 hv
  obtain ⟨s3, h5, h6, h7⟩ := finalize_ready h4
  have e : run (.setup offline none :: (l ++ [.finalize, .finalize])) init = finalize s3 := by
    rw [run_cons, step, h1]
    show run (l ++ [.finalize, .finalize]) s1 = _
    rw [run_append, h3]
    show run [.finalize, .finalize] s2 = _
    rw [run_cons, step, h5]
    show run [.finalize] s3 = _
    rw [run_cons, step]
    exact (bind_ok' _).symm
  rw [e]
  have hl : live s3 = [] := by rw [live, h6]; rfl
  apply (C38_finalize_iff s3 (by rw [hl]; simp)).2.2
  rw [(C38_finalize_iff s3 (by rw [hl]; simp)).1, hl]
  rintro ⟨-, h⟩
  exact absurd (h init.next (by simp [owned, h7.2.2.2.2.2.2.2.2.1, h7.2.2.2.2.2.2.2.2.2.1, h4.2.1])) (by simp)

example : ∃ w, run [.setup true none, .toOnline, .toZk, .finalize, .finalize] init = .error (.ub w) :=
  C38_session_twice true [.toOnline, .toZk] (by simp [Valid])

/-- After finalize a switch selects a dead backend: the next operation is undefined. -/
theorem C38_use_after_finalize (offline : Bool) (l : List Op) (hv : Valid offline (first offline) l) (o : Op) (ho : o = .toZk ∨ o = .toGc) :
    ∃ w, run (.setup offline none :: (l ++ [.finalize, o, .use])) init = .error (.ub w) := by
  obtain ⟨s1, h1, h2⟩ := setup_ok offline init
  obtain ⟨s2, h3, h4⟩ := ready_run l h2 hv
  obtain ⟨s3, h5, h6, h7⟩ := finalize_ready h4
  have hk : ∀ p, s3.kind p = none := by
    intro p
    cases p with
    | none => rfl
    | some i => simp [St.kind, h6, init]
  refine ⟨"call through a dead backend", ?_⟩
  rw [run_cons, step, h1]
  show run (l ++ [.finalize, o, .use]) s1 = _
  rw [run_append, h3]
  show run [.finalize, o, .use] s2 = _
  rw [run_cons, step, h5]
  show run [o, .use] s3 = _
  rcases ho with rfl | rfl
  · show run [.use] (toZk s3) = _
    have : ∀ p, (toZk s3).kind p = none := hk
    rw [run_cons, step, use, if_neg (by rw [this]; simp)]
    rfl
  · show run [.use] (toGc s3) = _
    have : ∀ p, (toGc s3).kind p = none := hk
    rw [run_cons, step, use, if_neg (by rw [this]; simp)]
    rfl

example := C38_use_after_finalize true [.toOnline, .toZk] (by simp [Valid]) .toGc (Or.inr rfl)

/-! ### Failing setups -/

/-- The backends set up before stage `g`, with `n` the next identifier before the call. -/
def before (offline : Bool) (n : Nat) : Stage → List (Nat × Kind)
  | .zk => []
  | .gc => [(n + 3, .zk), (n + 2, .zk)]
  | .off => [(n + 5, if offline then .online else .gc), (n + 4, if offline then .online else .gc), (n + 3, .zk), (n + 2, .zk)]

/-- C38: a setup that fails at any stage, from any state.  It throws, nothing is selected, the objects of the failed stage are
destroyed and its pointers are null, and the stages before it are alive and recorded; the pointers of later stages and
`enable_offline` keep their old values. -/
theorem C38_failed_setup (offline : Bool) (g : Stage) (p : Point) (hg : g = .off → offline = true) (s : St) :
    ∃ s', setup offline (some (g, p)) s = .ok (s', true) ∧ s'.circ = none ∧ s'.prot = none
      ∧ s'.enableOffline = s.enableOffline ∧ s'.ks = some s.next ∧ s'.enc = some (s.next + 1)
      ∧ s'.heap = before offline s.next g ++ [(s.next + 1, .file), (s.next, .file)] ++ s.heap
      ∧ (s'.zkC, s'.zkP) = (if g = .zk then (none, none) else (some (s.next + 2), some (s.next + 3)))
      ∧ (s'.gcC, s'.gcP) = (match g with
          | .zk => (s.gcC, s.gcP) | .gc => (none, none) | .off => (some (s.next + 4), some (s.next + 5)))
      ∧ (s'.offC, s'.offP) = (if g = .off then (none, none) else (s.offC, s.offP))
      ∧ s.next + 2 ≤ s'.next ∧ (g ≠ .zk → s.next + 4 ≤ s'.next) ∧ (g = .off → s.next + 6 ≤ s'.next) := by
  cases g <;> cases p <;> cases offline <;>
    first
    | (exfalso; exact Bool.false_ne_true (hg rfl))
    | (simp [setup, at?, safeSetup, setupFn, initFiles, St.alloc, resetProt, deleteProt, resetBuf, backup, St.delete, before,
        bind, Except.bind, pure, Except.pure])

/-- The heap has no repeated identifiers and all are below the next one. -/
def WF (s : St) : Prop := (live s).Nodup ∧ ∀ i ∈ live s, i < s.next

theorem wf_init : WF init := by simp [WF, live, init]

/-- A state in which finalize is defined and the offline backend not enabled. -/
def Safe (s : St) : Prop := WF s ∧ s.enableOffline = false ∧ (owned s).Nodup ∧ ∀ i ∈ owned s, i ∈ live s

theorem wf_failed {offline : Bool} {g : Stage} {p : Point} {s s' : St} (hg : g = .off → offline = true) (hs : WF s)
    (h : setup offline (some (g, p)) s = .ok (s', true)) : WF s' := by
  obtain ⟨t, e, -, -, -, -, -, h6, -, -, -, n1, n2, n3⟩ := C38_failed_setup offline g p hg s
  rw [h] at e
  simp only [Except.ok.injEq, Prod.mk.injEq, and_true] at e
  subst e
  have hb : ∀ i ∈ live s, i ≠ s.next ∧ i ≠ s.next + 1 ∧ i ≠ s.next + 2 ∧ i ≠ s.next + 3 ∧ i ≠ s.next + 4 ∧ i ≠ s.next + 5 := by
    intro i hi
    have := hs.2 i hi
    omega
  have hl : live s' = (before offline s.next g).map Prod.fst ++ [s.next + 1, s.next] ++ live s := by
    rw [live, h6]; simp [live]
  constructor
  · rw [hl]
    cases g <;> simp only [before, List.map_cons, List.map_nil, List.nil_append, List.cons_append, List.nodup_cons, List.mem_cons, not_or]
    all_goals
      refine ⟨?_, ?_⟩
      rotate_left
    all_goals (repeat' apply And.intro)
    all_goals first | exact hs.1 | omega | (intro hm; have := hs.2 _ hm; omega)
  · rw [hl]
    intro i hi
    rw [List.mem_append, List.mem_append] at hi
    rcases hi with (hi | hi) | hi
    · cases g <;> simp [before] at hi
      · have := n2 (by simp); omega
      · have := n3 rfl; omega
    · simp at hi; omega
    · have := hs.2 i hi; omega

theorem safe_failed {offline : Bool} {g : Stage} {p : Point} {s : St} (hg : g = .off → offline = true) (hs : Safe s) :
    ∃ s', setup offline (some (g, p)) s = .ok (s', true) ∧ Safe s' := by
  obtain ⟨s', e, -, -, h3, h4, h5, h6, h7, h8, h9, n1, n2, n3⟩ := C38_failed_setup offline g p hg s
  refine ⟨s', e, wf_failed hg hs.1 e, h3.trans hs.2.1, ?_⟩
  have hl : live s' = (before offline s.next g).map Prod.fst ++ [s.next + 1, s.next] ++ live s := by
    rw [live, h6]; simp [live]
  obtain ⟨⟨w1, w2⟩, o1, o2, o3⟩ := hs
  have h3' : s'.enableOffline = false := h3.trans o1
  cases g with
  | zk =>
    simp only [if_true, Prod.mk.injEq] at h7 h8
    have ho : owned s' = [s.gcC, s.gcP].filterMap id ++ [s.next, s.next + 1] := by
      simp only [owned, h3', h7.1, h7.2, h8.1, h8.2, h4, h5]
      rcases s.gcC with _ | a <;> rcases s.gcP with _ | b <;> rfl
    have hsub : List.Sublist ([s.gcC, s.gcP].filterMap id) (owned s) := by
      rw [owned]
      apply List.Sublist.filterMap
      simp
    have hb : ∀ i ∈ [s.gcC, s.gcP].filterMap id, i ∈ live s := fun i hi => o3 i (hsub.subset hi)
    rw [ho, hl]
    constructor
    · rw [List.nodup_append]
      refine ⟨hsub.nodup o2, by simp, ?_⟩
      intro a ha b hb'
      have := w2 a (hb a ha)
      simp at hb'
      omega
    · intro i hi
      rw [List.mem_append] at hi
      rcases hi with hi | hi
      · have := hb i hi
        simp [this]
      · simp at hi
        rcases hi with rfl | rfl <;> simp
  | gc =>
    simp only [reduceCtorEq, if_false, Prod.mk.injEq] at h7 h8
    have ho : owned s' = [s.next + 2, s.next + 3, s.next, s.next + 1] := by
      simp [owned, h3', h7.1, h7.2, h8.1, h8.2, h4, h5]
    rw [ho, hl]
    simp [before]
  | off =>
    simp only [reduceCtorEq, if_false, Prod.mk.injEq] at h7 h8
    have ho : owned s' = [s.next + 4, s.next + 5, s.next + 2, s.next + 3, s.next, s.next + 1] := by
      simp [owned, h3', h7.1, h7.2, h8.1, h8.2, h4, h5]
    rw [ho, hl]
    simp [before]

/-- C38: from program start, any number of failing setups at any points, then finalize: always defined. -/
theorem C38_failures_then_finalize (fs : List (Bool × Stage × Point)) (hf : ∀ f ∈ fs, f.2.1 = .off → f.1 = true) :
    ∃ s', run (fs.map (fun f => .setup f.1 (some (f.2.1, f.2.2))) ++ [.finalize]) init = .ok s' := by
  suffices h : ∀ s, Safe s → ∃ s', run (fs.map (fun f => .setup f.1 (some (f.2.1, f.2.2))) ++ [.finalize]) s = .ok s' from
    h init ⟨wf_init, rfl, by simp [owned, init], by simp [owned, init]⟩
  induction fs with
  | nil =>
    intro s hs
    obtain ⟨s', h⟩ := ((C38_finalize_iff s hs.1.1).1).mpr hs.2.2
    exact ⟨s', by simp only [List.map_nil, List.nil_append]; rw [run_cons, step, h]; rfl⟩
  | cons f fs ih =>
    intro s hs
    obtain ⟨s1, h1, h2⟩ := safe_failed (p := f.2.2) (hf f (by simp)) hs
    obtain ⟨s2, h3⟩ := ih (fun q hq => hf q (by simp [hq])) s1 h2
    refine ⟨s2, ?_⟩
    rw [List.map_cons, List.cons_append, run_cons, step, h1]
    exact h3

example := C38_failures_then_finalize [(true, .off, .early), (false, .zk, .late), (false, .gc, .early)] (by simp)

/-- C38: from program start, a single failing setup then finalize frees everything. -/
theorem C38_failure_freed (offline : Bool) (g : Stage) (p : Point) (hg : g = .off → offline = true) :
    ∃ s', run [.setup offline (some (g, p)), .finalize] init = .ok s' ∧ s'.heap = [] := by
  cases g <;> cases p <;> cases offline <;>
    first | (exfalso; exact Bool.false_ne_true (hg rfl)) | exact ⟨_, rfl, rfl⟩

/-- C38 fails when the caller retries: what the failed setup had created before (always the circuit files) is lost. -/
theorem C38_retry_leaks (offline offline' : Bool) (g : Stage) (p : Point) (hg : g = .off → offline = true) (l : List Op)
    (hv : Valid offline' (first offline') l) :
    ∃ s', run (.setup offline (some (g, p)) :: .setup offline' none :: (l ++ [.finalize])) init = .ok s'
      ∧ s'.heap.length = (match g with | .zk => 2 | .gc => 4 | .off => 6) := by
  obtain ⟨s1, h1, -, -, -, -, -, h6, -⟩ := C38_failed_setup offline g p hg init
  obtain ⟨s2, h2, h3⟩ := C38_session offline' s1 l hv
  refine ⟨s2, ?_, ?_⟩
  · rw [run_cons, step, h1]
    exact h2
  · rw [h3, h6]
    cases g <;> rfl

example := C38_retry_leaks true false .off .early (fun _ => rfl) [.toZk, .sync] (by simp [Valid, select])

/-- C38 after an earlier session: a failing setup followed by finalize is defined exactly if the failure was after the
zero-knowledge stage and, at the garbling stage, the earlier session was not in offline mode; in the other cases finalize
deletes backends of the earlier session again. -/
theorem C38_failure_after_session (offline0 : Bool) (l : List Op) (hv : Valid offline0 (first offline0) l) (offline : Bool)
    (g : Stage) (p : Point) (hg : g = .off → offline = true) :
    ((∃ s', run (.setup offline0 none :: (l ++ [.finalize, .setup offline (some (g, p)), .finalize])) init = .ok s')
      ↔ g = .off ∨ (g = .gc ∧ offline0 = false))
    ∧ ((∃ w, run (.setup offline0 none :: (l ++ [.finalize, .setup offline (some (g, p)), .finalize])) init = .error (.ub w))
      ↔ g = .zk ∨ (g = .gc ∧ offline0 = true)) := by
  obtain ⟨s1, h1, h2⟩ := setup_ok offline0 init
  obtain ⟨s2, h3, h4⟩ := ready_run l h2 hv
  obtain ⟨s3, h5, h6, h7, q1, q2, q3, q4, q5, q6, q7, q8, q9, -⟩ := finalize_ready h4
  have hl3 : live s3 = [] := by rw [live, h6]; rfl
  have w3 : WF s3 := by simp [WF, hl3]
  obtain ⟨s4, k1, -, -, k3, k4, k5, k6, k7, k8, k9, -⟩ := C38_failed_setup offline g p hg s3
  have w4 := wf_failed hg w3 k1
  have e : run (.setup offline0 none :: (l ++ [.finalize, .setup offline (some (g, p)), .finalize])) init = finalize s4 := by
    rw [run_cons, step, h1]
    show run (l ++ [.finalize, .setup offline (some (g, p)), .finalize]) s1 = _
    rw [run_append, h3]
    show run [.finalize, .setup offline (some (g, p)), .finalize] s2 = _
    rw [run_cons, step, h5]
    show run [.setup offline (some (g, p)), .finalize] s3 = _
    rw [run_cons, step, k1]
    show run [.finalize] s4 = _
    rw [run_cons, step]
    exact (bind_ok' _).symm
  rw [e]
  obtain ⟨r0, r1, r2, r3, r4, r5, r6, r7, r8, r9, -⟩ := h4
  have hn : s3.next = if offline0 then 8 else 6 := by rw [h7, r7]; rfl
  have hl : live s4 = (before offline s3.next g).map Prod.fst ++ [s3.next + 1, s3.next] := by
    rw [live, k6]
    have : s3.heap = [] := h6
    simp [this]
  have key : (∃ s', finalize s4 = .ok s') ↔ g = .off ∨ (g = .gc ∧ offline0 = false) := by
    rw [(C38_finalize_iff s4 w4.1).1, hl, owned, k3, k4, k5, q7, r0]
    rw [q1, q2, r5, r6] at k8
    rw [q5, q6, r8, r9] at k9
    cases g with
    | zk =>
      simp only [if_true, Prod.mk.injEq] at k7 k8
      rw [k7.1, k7.2, k8.1, k8.2]
      cases offline0 <;> simp [hn, before, init]
    | gc =>
      simp only [reduceCtorEq, if_false, Prod.mk.injEq] at k7 k8 k9
      rw [k7.1, k7.2, k8.1, k8.2, k9.1, k9.2]
      cases offline0 <;> simp [hn, before, init]
    | off =>
      simp only [reduceCtorEq, if_true, if_false, Prod.mk.injEq] at k7 k8 k9
      rw [k7.1, k7.2, k8.1, k8.2, k9.1, k9.2]
      cases offline0 <;> simp [hn, before]
  refine ⟨key, ?_⟩
  constructor
  · rintro ⟨w, hw⟩
    have : ¬ ∃ s', finalize s4 = .ok s' := by rw [hw]; simp
    rw [key] at this
    cases g <;> cases offline0 <;> simp at this ⊢
  · intro h
    apply (C38_finalize_iff s4 w4.1).2.2
    rw [key]
    rcases h with rfl | ⟨rfl, rfl⟩ <;> simp

example := C38_failure_after_session true [.toOnline, .toZk] (by simp [Valid]) false .gc .late (by simp)

end Verif.Props.Switch
