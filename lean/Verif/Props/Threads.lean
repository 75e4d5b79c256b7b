import Verif.Lemmas.Threads
import Verif.Props.Switch

/-!
# C94: threads

In a build with `THREADING` every thread has its own backends: any interleaving of the calls of any number of threads is defined if
and only if the calls of each thread alone are, and each thread works with the backends it would have alone.  Without `THREADING`
two threads destroy each other's backends.
-/

namespace Verif.Props.Threads

open Verif.Model Verif.Model.Switch Verif.Props.Switch Verif.Lemmas.Threads

/-- A schedule is defined exactly if the calls of each thread, made by a program without other threads, are. -/
theorem C94_isolated (w : List (Nat × Op)) :
    (∃ m, trun true w .init = .ok m) ↔ ∀ i, ∃ s, run (callsOf i w) init = .ok s := (inv_run w inv_init).1

/-- After a schedule every thread has selected a backend of the same kind, alive or not, as it would have alone. -/
theorem C94_same_backend (w : List (Nat × Op)) (m : Threads) (h : trun true w .init = .ok m) (i : Nat) :
    ∃ s, run (callsOf i w) init = .ok s ∧ (m.view i).kind (m.view i).circ = s.kind s.circ ∧
      (m.view i).kind (m.view i).prot = s.kind s.prot := by
  obtain ⟨solo, h1, ⟨ρ, h2⟩⟩ := (inv_run w inv_init).2 m h
  have hi := h2 i
  refine ⟨solo i, h1 i, ?_, ?_⟩
  · rw [hi.fields.1]; exact hi.kind (by simp [ptrs])
  · rw [hi.fields.2.1]; exact hi.kind (by simp [ptrs])

/-- The objects alive are those that the threads alone would have left. -/
theorem C94_no_leak (w : List (Nat × Op)) (m : Threads) (h : trun true w .init = .ok m) :
    m.heap = [] ↔ ∀ i s, run (callsOf i w) init = .ok s → s.heap = [] := by
  obtain ⟨solo, h1, ⟨ρ, h2⟩⟩ := (inv_run w inv_init).2 m h
  constructor
  · intro he i s hs
    rw [h1 i] at hs
    cases hs
    refine List.eq_nil_iff_forall_not_mem.mpr fun x hx => ?_
    obtain ⟨k, κ⟩ := x
    have : (ρ i k, κ) ∈ m.heap := ((h2 i).mem _ _).mpr (.inr ⟨k, hx, rfl⟩)
    rw [he] at this
    cases this
  · intro ha
    refine List.eq_nil_iff_forall_not_mem.mpr fun x hx => ?_
    obtain ⟨k, κ⟩ := x
    rcases ((h2 0).mem _ _).mp hx with ⟨j, l, _, hl, _⟩ | ⟨l, hl, _⟩
    · rw [ha j _ (h1 j)] at hl; cases hl
    · rw [ha 0 _ (h1 0)] at hl; cases hl

/-- Sessions in any number of threads, interleaved in any way: nothing is undefined and everything is freed. -/
theorem C94_sessions (w : List (Nat × Op)) (ss : Nat → List (Bool × List Op))
    (hw : ∀ i, callsOf i w = (ss i).flatMap fun p => .setup p.1 none :: (p.2 ++ [.finalize]))
    (hv : ∀ i, ∀ p ∈ ss i, Valid p.1 (first p.1) p.2) : ∃ m, trun true w .init = .ok m ∧ m.heap = [] := by
  have hs : ∀ i, ∃ s, run (callsOf i w) init = .ok s ∧ s.heap = [] := fun i => by
    rw [hw i]; exact C38_sessions (ss i) (hv i)
  obtain ⟨m, hm⟩ := (C94_isolated w).mpr fun i => (hs i).imp fun _ h => h.1
  refine ⟨m, hm, (C94_no_leak w m hm).mpr fun i s h => ?_⟩
  obtain ⟨s', h1, h2⟩ := hs i
  rw [h1] at h
  cases h
  exact h2

/-- In the middle of a session each thread works with the backend it selected last, whatever the others do. -/
theorem C94_select (w : List (Nat × Op)) (m : Threads) (h : trun true w .init = .ok m) (i : Nat) (offline : Bool) (l : List Op)
    (hw : callsOf i w = .setup offline none :: l) (hv : Valid offline (first offline) l) :
    (m.view i).kind (m.view i).circ = some (selected offline (first offline) l) ∧
      (m.view i).kind (m.view i).prot = some (selected offline (first offline) l) := by
  obtain ⟨s, h1, h2, h3⟩ := C94_same_backend w m h i
  obtain ⟨s', h4, h5, h6⟩ := C38_select offline init l hv
  rw [hw, h4] at h1
  cases h1
  exact ⟨h2.trans h5, h3.trans h6⟩

/-- Two threads in different modes, their calls mixed. -/
def mixed : List (Nat × Op) :=
  [(1, .setup false none), (2, .setup true none), (1, .toZk), (2, .use), (1, .sync), (2, .toOnline), (2, .use), (1, .finalize),
    (2, .toZk), (2, .sync), (2, .finalize)]

example : ∃ m, trun true mixed .init = .ok m ∧ m.heap = [] := by
  refine C94_sessions mixed (fun i => if i = 1 then [(false, [.toZk, .sync])] else if i = 2 then
    [(true, [.use, .toOnline, .use, .toZk, .sync])] else []) ?_ ?_
  · intro i
    by_cases h1 : i = 1
    · subst h1; rfl
    · by_cases h2 : i = 2
      · subst h2; rfl
      · simp [callsOf, mixed, h1, h2, Ne.symm h1, Ne.symm h2]
  · intro i p hp
    by_cases h1 : i = 1
    · subst h1; simp at hp; subst hp; simp [Valid, select]
    · by_cases h2 : i = 2
      · subst h2; simp at hp; subst hp; simp [Valid, select]
      · simp [h1, h2] at hp

/-! ### What does not work -/

/-- A backend set up by one thread cannot be used by another: the variables of that thread are null. -/
theorem C94_other_thread (w : List (Nat × Op)) (i : Nat) (o : Op) (rest : List Op) (hw : callsOf i w = o :: rest)
    (ho : o = .use ∨ o = .sync ∨ o = .toOnline) : ∀ m, trun true w .init ≠ .ok m := by
  intro m h
  obtain ⟨s, hs⟩ := (C94_isolated w).mp ⟨m, h⟩ i
  rw [hw, run_cons] at hs
  rcases ho with rfl | rfl | rfl <;> cases hs

example : ∀ m, trun true [(0, .setup false none), (1, .use)] .init ≠ .ok m :=
  C94_other_thread _ 1 .use [] rfl (.inl rfl)

/-- `finalize_protocol` in another thread than `setup_protocol` frees nothing. -/
theorem C94_finalize_elsewhere (offline : Bool) (i j : Nat) (h : i ≠ j) :
    ∃ m, trun true [(i, .setup offline none), (j, .finalize)] .init = .ok m ∧ m.heap.length = if offline then 8 else 6 := by
  have h' : ¬ j = i := fun e => h e.symm
  have e : ∀ s, step (.setup offline none) init = .ok s → ∀ m, (Threads.init.put i s) = m →
      ∃ m', trun true [(j, .finalize)] m = .ok m' ∧ m'.heap = s.heap := by
    intro s _ m hm
    subst hm
    have ef : step .finalize ((Threads.init.put i s).view j) = .ok ((Threads.init.put i s).view j) := by
      simp [step, finalize, uninitFiles, St.delete, Threads.view, Threads.put, Threads.init, h', bind, Except.bind]
    refine ⟨(Threads.init.put i s).put j ((Threads.init.put i s).view j), ?_, ?_⟩
    · show (tstep true j .finalize (Threads.init.put i s)).bind (trun true []) = _
      simp only [tstep, if_true]
      rw [ef]
      rfl
    · rfl
  cases offline
  · obtain ⟨m', h1, h2⟩ := e _ rfl _ rfl
    exact ⟨m', h1, by rw [h2]; rfl⟩
  · obtain ⟨m', h1, h2⟩ := e _ rfl _ rfl
    exact ⟨m', h1, by rw [h2]; rfl⟩

theorem view_put (m : Threads) (s : St) : (m.put 0 s).view 0 = s := view_put_same m 0 s

/-- Without `THREADING` it does not matter which thread makes a call. -/
theorem C94_shared (w : List (Nat × Op)) (m : Threads) :
    (trun false w m).map (fun m => m.view 0) = run (w.map (·.2)) (m.view 0) := by
  induction w generalizing m with
  | nil => rfl
  | cons p w ih =>
    obtain ⟨i, o⟩ := p
    show ((tstep false i o m).bind (trun false w)).map _ = (step o (m.view 0)).bind (run (w.map (·.2)))
    simp only [tstep, Bool.false_eq_true, if_false]
    cases step o (m.view 0) with
    | error e => rfl
    | ok s =>
      have := ih (m.put 0 s)
      rw [view_put] at this
      exact this

/-- Without `THREADING`, two sessions in two threads, each of them right: the objects of the second are deleted twice and those of
the first never. -/
theorem C94_shared_sessions (a b : Bool) :
    let w := [(0, .setup a none), (1, .setup b none), (0, .finalize), (1, .finalize)]
    (∀ i, ∃ s, run (callsOf i w) init = .ok s) ∧ ∃ e, trun false w .init = .error (.ub e) := by
  intro w
  refine ⟨fun i => ?_, ?_⟩
  · by_cases h0 : i = 0
    · subst h0
      obtain ⟨s, h, _⟩ := C38_session a init [] trivial
      exact ⟨s, h⟩
    · by_cases h1 : i = 1
      · subst h1
        obtain ⟨s, h, _⟩ := C38_session b init [] trivial
        exact ⟨s, h⟩
      · have : callsOf i w = [] := by simp [callsOf, w, Ne.symm h0, Ne.symm h1]
        rw [this]
        exact ⟨_, rfl⟩
  · refine ⟨"delete of a dangling pointer", ?_⟩
    cases a <;> cases b <;> rfl

/-- Without `THREADING`, one thread's setup takes the zero-knowledge backend away that another has selected. -/
theorem C94_shared_select (a b : Bool) :
    ∃ e, trun false [(0, .setup a none), (0, .toZk), (1, .setup b none), (0, .sync)] .init = .error (.ub e) := by
  refine ⟨"sync_zk_bool: prot_exec is not a zero-knowledge backend", ?_⟩
  cases a <;> cases b <;> rfl

end Verif.Props.Threads
