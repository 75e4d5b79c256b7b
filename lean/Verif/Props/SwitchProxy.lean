import Verif.Model.SwitchProxy
import Verif.Props.Switch

/-! C91: the life cycle of the proxy mode, alone and together with the other mode. -/

namespace Verif.Props.Switch
open Verif.Model Verif.Model.Switch

theorem prun_cons (o : POp) (l : List POp) (s : St) : prun (o :: l) s = (pstep o s).bind (prun l) := rfl

theorem prun_append (l l' : List POp) (s : St) : prun (l ++ l') s = (prun l s).bind (prun l') := by
  induction l generalizing s with
  | nil => rfl
  | cons o l ih =>
    rw [List.cons_append, prun_cons, prun_cons]
    cases pstep o s with
    | error => rfl
    | ok s' => exact ih s'

theorem prun_base (l : List Op) (s : St) : prun (l.map .base) s = run l s := by
  induction l generalizing s with
  | nil => rfl
  | cons o l ih =>
    rw [List.map_cons, prun_cons, run_cons]
    show (step o s).bind _ = _
    cases step o s with
    | error => rfl
    | ok s' => exact ih s'

/-- What a successful setup of the proxy mode leaves. -/
theorem proxy_ready (s : St) :
    proxySetup none s = ({ s with
      heap := [(s.next + 3, .zk), (s.next + 2, .zk), (s.next + 1, .file), (s.next, .file)] ++ s.heap
      next := s.next + 4
      ks := some s.next
      enc := some (s.next + 1)
      circ := some (s.next + 2)
      prot := some (s.next + 3) }, false) := rfl

/-- Uses and synchronisations change nothing. -/
theorem proxy_uses (l : List Op) (hl : ∀ o ∈ l, o = .use ∨ o = .sync) (s : St) (hc : s.kind s.circ = some .zk)
    (hp : s.kind s.prot = some .zk) : run l s = .ok s := by
  induction l with
  | nil => rfl
  | cons o l ih =>
    rw [run_cons]
    have h1 : step o s = .ok s := by
      rcases hl o (by simp) with rfl | rfl
      · simp [step, use, hc, hp]
      · simp [step, sync, hp]
    rw [h1]
    exact ih fun o ho => hl o (by simp [ho])

theorem proxy_finalize_ready (s : St) : ∃ s', proxyFinalize (proxySetup none s).1 = .ok s'
    ∧ s' = { (proxySetup none s).1 with heap := s.heap } := by
  rw [proxy_ready]
  refine ⟨_, ?_, rfl⟩
  simp [proxyFinalize, St.kind, St.delete, uninitFiles, bind, Except.bind]

/-- A session of one of the modes: `full` are the calls between `setup_protocol` and `finalize_protocol`, `proxy` those between
`setup_proxy_protocol` and `finalize_proxy_protocol`. -/
inductive Sess where
  | full (offline : Bool) (l : List Op)
  | proxy (l : List Op)

/-- The calls of a session. -/
def Sess.calls : Sess → List POp
  | .full offline l => (Op.setup offline none :: (l ++ [.finalize])).map .base
  | .proxy l => .setup none :: (l.map .base ++ [.finalize])

/-- The calls inside are those that mode allows. -/
def Sess.Ok : Sess → Prop
  | .full offline l => Valid offline (first offline) l
  | .proxy l => ∀ o ∈ l, o = .use ∨ o = .sync

/-- **C91.**  A session of the proxy mode, from any state: no dead object is used or freed, and exactly the objects from before are left. -/
theorem C91_session (l : List Op) (hl : ∀ o ∈ l, o = .use ∨ o = .sync) (s : St) :
    ∃ s', prun (.setup none :: (l.map .base ++ [.finalize])) s = .ok s' ∧ s'.heap = s.heap := by
  obtain ⟨s', h1, h2⟩ := proxy_finalize_ready s
  refine ⟨s', ?_, by rw [h2]⟩
  rw [prun_cons]
  show prun (l.map .base ++ [.finalize]) (proxySetup none s).1 = _
  rw [prun_append, prun_base, proxy_uses l hl _ (by simp [proxy_ready, St.kind]) (by simp [proxy_ready, St.kind])]
  show (proxyFinalize _).bind _ = _
  rw [h1]; rfl

/-- **C91, both modes.**  Any sequence of complete sessions of both modes, in any order, is defined and leaves nothing. -/
theorem C91_sessions (ss : List Sess) (hv : ∀ x ∈ ss, x.Ok) : ∃ s', prun (ss.flatMap Sess.calls) init = .ok s' ∧ s'.heap = [] := by
  suffices h : ∀ s : St, ∃ s', prun (ss.flatMap Sess.calls) s = .ok s' ∧ s'.heap = s.heap from h init
  induction ss with
  | nil => intro s; exact ⟨s, rfl, rfl⟩
  | cons x ss ih =>
    intro s
    have h1 : ∃ s1, prun x.calls s = .ok s1 ∧ s1.heap = s.heap := by
      have hx := hv x (by simp)
      cases x with
      | full offline l =>
        obtain ⟨s1, h1, h2⟩ := C38_session offline s l hx
        exact ⟨s1, by rw [Sess.calls, prun_base]; exact h1, h2⟩
      | proxy l => exact C91_session l hx s
    obtain ⟨s1, h1, h2⟩ := h1
    obtain ⟨s2, h3, h4⟩ := ih (fun y hy => hv y (by simp [hy])) s1
    exact ⟨s2, by rw [List.flatMap_cons, prun_append, h1]; exact h3, by rw [h4, h2]⟩

/-- **C91, failed setup.**  A setup of the proxy mode that throws frees nothing: the two circuits stay, and so does the circuit object if it
was made; `prot_exec` (and `circ_exec` if it was not reached) keep the values from before. -/
theorem C91_failed_setup (p : Point) (s : St) :
    ∃ s', proxySetup (some p) s = (s', true)
      ∧ s'.heap = (if p = .late then [(s.next + 2, .zk)] else []) ++ [(s.next + 1, .file), (s.next, .file)] ++ s.heap
      ∧ s'.circ = (if p = .late then some (s.next + 2) else s.circ) ∧ s'.prot = s.prot
      ∧ s'.ks = some s.next ∧ s'.enc = some (s.next + 1) := by
  cases p <;> exact ⟨_, rfl, rfl, rfl, rfl, rfl, rfl⟩

/-- What is lost when a failed setup is tried again until it succeeds, and the session is then completed: two circuits for every failure, and
the circuit object for every late one. -/
theorem C91_retries (ps : List Point) (l : List Op) (hl : ∀ o ∈ l, o = .use ∨ o = .sync) (s : St) :
    ∃ s', prun (ps.map (fun p => .setup (some p)) ++ .setup none :: (l.map .base ++ [.finalize])) s = .ok s'
      ∧ s'.heap.length = s.heap.length + 2 * ps.length + (ps.filter (· = .late)).length := by
  induction ps generalizing s with
  | nil =>
    obtain ⟨s', h1, h2⟩ := C91_session l hl s
    exact ⟨s', h1, by simp [h2]⟩
  | cons p ps ih =>
    obtain ⟨s1, h1, h2, -⟩ := C91_failed_setup p s
    obtain ⟨s', h3, h4⟩ := ih s1
    refine ⟨s', ?_, ?_⟩
    · rw [List.map_cons, List.cons_append, prun_cons]
      show prun _ (proxySetup (some p) s).1 = _
      rw [h1]; exact h3
    · rw [h4, h2]
      cases p <;> simp <;> omega

/-- **C91 fails after a failed setup.**  `prot_exec` of an earlier session is left dangling: after a completed session of the proxy mode and a
setup that throws, both the use of a value and `finalize_proxy_protocol` go through a dead object. -/
theorem C91_dangling (l : List Op) (hl : ∀ o ∈ l, o = .use ∨ o = .sync) (p : Point) (o : POp) (ho : o = .base .use ∨ o = .finalize) :
    ∃ w, prun (.setup none :: (l.map .base ++ [.finalize, .setup (some p), o])) init = .error (.ub w) := by
  obtain ⟨s', h1, h2⟩ := proxy_finalize_ready init
  have e : prun (.setup none :: (l.map .base ++ [.finalize, .setup (some p), o])) init = prun [.setup (some p), o] s' := by
    rw [prun_cons]
    show prun (l.map .base ++ _) (proxySetup none init).1 = _
    rw [prun_append, prun_base, proxy_uses l hl _ (by simp [proxy_ready, St.kind]) (by simp [proxy_ready, St.kind])]
    show prun [.finalize, .setup (some p), o] (proxySetup none init).1 = _
    rw [prun_cons]
    show (proxyFinalize _).bind _ = _
    rw [h1]; rfl
  rw [e, h2]
  rcases ho with rfl | rfl <;> cases p <;> exact ⟨_, rfl⟩

/-- **C91 fails for nested sessions.**  The two modes share the circuits: with a session of the proxy mode inside one of the other mode,
`finalize_protocol` frees them a second time. -/
theorem C91_nested (offline : Bool) (l l' : List Op) (hl : Valid offline (first offline) l) (hl' : ∀ o ∈ l', o = .use ∨ o = .sync) :
    ∃ w, prun ((Op.setup offline none :: l).map .base ++ .setup none :: (l'.map .base ++ [.finalize, .base .finalize])) init
      = .error (.ub w) := by
  obtain ⟨s1, h1, h2⟩ := setup_ok offline init
  obtain ⟨s2, h3, h4⟩ := ready_run l h2 hl
  obtain ⟨s3, h5, h6⟩ := proxy_finalize_ready s2
  have e : prun ((Op.setup offline none :: l).map .base ++ .setup none :: (l'.map .base ++ [.finalize, .base .finalize])) init
      = finalize s3 := by
    rw [prun_append, prun_base, run_cons, step, h1]
    show (run l s1).bind _ = _
    rw [h3]
    show prun (.setup none :: _) s2 = _
    rw [prun_cons]
    show prun (l'.map .base ++ _) (proxySetup none s2).1 = _
    rw [prun_append, prun_base, proxy_uses l' hl' _ (by simp [proxy_ready, St.kind]) (by simp [proxy_ready, St.kind])]
    show prun [.finalize, .base .finalize] (proxySetup none s2).1 = _
    rw [prun_cons]
    show (proxyFinalize _).bind _ = _
    rw [h5]
    show (finalize s3).bind Except.ok = _
    cases finalize s3 <;> rfl
  rw [e]
  obtain ⟨g0, g01, g02, g1, g2, g3, g4, g41, g5, g6, g7, -⟩ := h4
  have hlive : live s3 = live s2 := by rw [h6]; rfl
  have hl2 : live s2 = (if offline then [7, 6] else []) ++ [5, 4, 3, 2, 1, 0] := by
    simp only [live, g7, init]; cases offline <;> rfl
  have hks : s3.ks = some s2.next := by rw [h6]; rfl
  have hn : s2.next = if offline then 8 else 6 := by rw [g41]; cases offline <;> rfl
  apply (C38_finalize_iff s3 (by rw [hlive, hl2]; cases offline <;> decide)).2.2
  rw [(C38_finalize_iff s3 (by rw [hlive, hl2]; cases offline <;> decide)).1]
  rintro ⟨-, h⟩
  have hm : s2.next ∈ owned s3 := by
    simp only [owned, hks, List.mem_filterMap, id]
    exact ⟨some s2.next, by simp, rfl⟩
  have := h _ hm
  rw [hlive, hl2, hn] at this
  cases offline <;> simp at this

/-- A second `finalize_proxy_protocol`, and a use after it, go through dead objects. -/
theorem C91_after_finalize (l : List Op) (hl : ∀ o ∈ l, o = .use ∨ o = .sync) (o : POp) (ho : o = .base .use ∨ o = .base .sync ∨ o = .finalize) :
    ∃ w, prun (.setup none :: (l.map .base ++ [.finalize, o])) init = .error (.ub w) := by
  obtain ⟨s', h1, h2⟩ := proxy_finalize_ready init
  have e : prun (.setup none :: (l.map .base ++ [.finalize, o])) init = prun [o] s' := by
    rw [prun_cons]
    show prun (l.map .base ++ _) (proxySetup none init).1 = _
    rw [prun_append, prun_base, proxy_uses l hl _ (by simp [proxy_ready, St.kind]) (by simp [proxy_ready, St.kind])]
    show prun [.finalize, o] (proxySetup none init).1 = _
    rw [prun_cons]
    show (proxyFinalize _).bind _ = _
    rw [h1]; rfl
  rw [e, h2]
  rcases ho with rfl | rfl | rfl <;> exact ⟨_, rfl⟩

/-- Sessions of both modes that meet the hypotheses. -/
example : ∀ x ∈ [Sess.proxy [.use, .sync, .use], .full true [.use, .toOnline, .use, .toZk, .sync, .use], .proxy [], .full false [.use, .toZk]], x.Ok := by
  simp [Sess.Ok, Valid, first, select]

example : ((prun [.setup (some .late), .setup (some .early), .setup none, .base .use, .finalize] init).toOption.map (·.heap.length)) = some 5 := by
  decide +kernel

/-- `finalize_proxy_protocol` when no setup has succeeded, after any number of failed ones: `prot_exec` is null, and `finalize_zk_bool` goes
through it. -/
theorem C91_failures_then_finalize (ps : List Point) :
    ∃ w, prun (ps.map (fun p => .setup (some p)) ++ [.finalize]) init = .error (.ub w) := by
  suffices h : ∀ s : St, s.prot = none → ∃ w, prun (ps.map (fun p => .setup (some p)) ++ [.finalize]) s = .error (.ub w) from h init rfl
  induction ps with
  | nil =>
    intro s hs
    refine ⟨"finalize_zk_bool: not a zero-knowledge backend", ?_⟩
    have : proxyFinalize s = .error (.ub "finalize_zk_bool: not a zero-knowledge backend") := by
      simp [proxyFinalize, hs, St.kind]
    show (proxyFinalize s).bind _ = _
    rw [this]; rfl
  | cons p ps ih =>
    intro s hs
    obtain ⟨s1, h1, -, -, h2, -⟩ := C91_failed_setup p s
    obtain ⟨w, hw⟩ := ih s1 (by rw [h2, hs])
    refine ⟨w, ?_⟩
    rw [List.map_cons, List.cons_append, prun_cons]
    show prun _ (proxySetup (some p) s).1 = _
    rw [h1]; exact hw

/-- After a late failure the circuit object is there, the protocol object is not. -/
example : ((prun [.setup (some .late)] init).toOption.map fun s => (s.kind s.circ, s.kind s.prot)) = some (some .zk, none) := by decide

end Verif.Props.Switch
