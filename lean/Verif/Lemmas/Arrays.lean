import Verif.Model.Arrays

namespace Verif.Lemmas.Arrays
open Verif.Model Verif.Model.Arrays

/-- The names of the kept arrays. -/
def ids (m : Mem) : List Nat := ((m.kept false ++ m.kept true).map Prod.fst)

/-- The heap consists of the arrays of the object and of `L`, each once. -/
def Inv (L : List Nat) (m : Mem) : Prop :=
  m.live.Perm (ids m ++ L) ∧ m.live.Nodup ∧ ∀ p ∈ m.live, p < m.next

/-- Every local array is released by `delete[]`. -/
def Locals : Code → Prop
  | .done => True
  | .loc g r => g = .arr ∧ Locals r
  | .call c r => Locals c ∧ Locals r
  | .keep _ _ r => Locals r
  | .pop _ r => Locals r

/-- Every kept array is released by `delete[]`. -/
def Keeps : Code → Prop
  | .done => True
  | .loc _ r => Keeps r
  | .call c r => Keeps c ∧ Keeps r
  | .keep _ g r => g = .arr ∧ Keeps r
  | .pop _ r => Keeps r

/-- No kept array is released. -/
def NoPop : Code → Prop
  | .done => True
  | .loc _ r => NoPop r
  | .call c r => NoPop c ∧ NoPop r
  | .keep _ _ r => NoPop r
  | .pop _ _ => False

theorem okBind {α β : Type} (a : α) (f : α → Res β) : (Except.ok a >>= f) = f a := rfl
theorem errBind {α β : Type} (e : Fault) (f : α → Res β) : ((Except.error e : Res α) >>= f) = Except.error e := rfl

theorem inv_make {L : List Nat} {m : Mem} (h : Inv L m) : Inv (m.next :: L) m.make := by
  obtain ⟨hp, hn, hl⟩ := h
  refine ⟨?_, ?_, ?_⟩
  · show (m.next :: m.live).Perm (ids m ++ m.next :: L)
    exact (hp.cons _).trans List.perm_middle.symm
  · show (m.next :: m.live).Nodup
    refine List.nodup_cons.2 ⟨fun hm => Nat.lt_irrefl _ (hl _ hm), hn⟩
  · intro p hm
    show p < m.next + 1
    rcases List.mem_cons.1 hm with h | h
    · omega
    · have := hl p h; omega

theorem inv_release {L : List Nat} {m : Mem} {p : Nat} (h : Inv (p :: L) m) :
    ∃ m', m.release .arr p = .ok m' ∧ Inv L m' ∧ m'.kept = m.kept ∧ m'.next = m.next := by
  obtain ⟨hp, hn, hl⟩ := h
  have hm : p ∈ m.live := hp.mem_iff.2 (by simp)
  refine ⟨{ m with live := m.live.erase p }, by simp [Mem.release, hm], ⟨?_, ?_, ?_⟩, rfl, rfl⟩
  · show (m.live.erase p).Perm (ids m ++ L)
    have h1 := (hp.trans List.perm_middle).erase p
    simpa using h1
  · exact hn.erase p
  · intro q hq; exact hl q (List.mem_of_mem_erase hq)

theorem perm_keep (m : Mem) (c : Bool) (g : Guard) (L : List Nat) :
    (m.next :: (ids m ++ L)).Perm
      (ids { m.make with kept := fun d => if d = c then m.kept d ++ [(m.next, g)] else m.kept d } ++ L) := by
  cases c
  · simp only [ids, if_true, List.map_append, List.map_cons, List.map_nil, List.append_assoc, Bool.true_eq_false,
      if_false]
    exact List.perm_middle.symm
  · simp only [ids, if_true, List.map_append, List.map_cons, List.map_nil, List.append_assoc, Bool.false_eq_true,
      if_false]
    rw [← List.append_assoc, ← List.append_assoc]
    refine (List.perm_middle (l₁ := (m.kept false).map Prod.fst ++ (m.kept true).map Prod.fst) (l₂ := L)).symm.trans ?_
    simp

theorem inv_keep {L : List Nat} {m : Mem} (h : Inv L m) (c : Bool) (g : Guard) :
    Inv L { m.make with kept := fun d => if d = c then m.kept d ++ [(m.next, g)] else m.kept d } := by
  obtain ⟨hp, hn, hl⟩ := h
  obtain ⟨-, h2, h3⟩ := inv_make (L := L) ⟨hp, hn, hl⟩
  exact ⟨(hp.cons _).trans (perm_keep m c g L), h2, h3⟩

theorem inv_pop {L : List Nat} {m : Mem} (h : Inv L m) {c : Bool} {p : Nat} {g : Guard} {k : List (Nat × Guard)}
    (hk : m.kept c = (p, g) :: k) : Inv (p :: L) { m with kept := fun d => if d = c then k else m.kept d } := by
  obtain ⟨hp, hn, hl⟩ := h
  refine ⟨hp.trans ?_, hn, hl⟩
  cases c
  · simp only [ids, hk, if_true, Bool.true_eq_false, if_false, List.cons_append, List.map_cons]
    exact List.perm_middle.symm
  · simp only [ids, hk, if_true, Bool.false_eq_true, if_false, List.map_append, List.map_cons, List.append_assoc, List.cons_append]
    refine List.perm_middle.trans ?_
    rw [← List.append_assoc, ← List.append_assoc]
    exact List.perm_middle.symm

/-- What a container holds after a function without `pop`. -/
def added (c : Bool) : Code → List Guard
  | .done => []
  | .loc _ r => added c r
  | .call a r => added c a ++ added c r
  | .keep d g r => (if c = d then [g] else []) ++ added c r
  | .pop _ r => added c r

/-- A function without `pop` whose locals are released by `delete[]` returns; the heap differs by what the object keeps. -/
theorem run_ok (c : Code) : Locals c → NoPop c → ∀ {L m}, Inv L m →
    ∃ m', run c m = .ok m' ∧ Inv L m' ∧
      ∀ d, ∃ x, m'.kept d = m.kept d ++ x ∧ x.map Prod.snd = added d c := by
  induction c with
  | done => intro _ _ L m h; exact ⟨m, rfl, h, fun d => ⟨[], by simp, rfl⟩⟩
  | loc g r ih =>
    intro hl hn L m h
    obtain ⟨rfl, hl⟩ := hl
    obtain ⟨m', h1, h2, h3⟩ := ih hl hn (inv_make h)
    obtain ⟨m'', h4, h5, h6, -⟩ := inv_release h2
    refine ⟨m'', ?_, h5, fun d => ?_⟩
    · simp only [run, h1, okBind, h4]
    · rw [h6]; exact h3 d
  | call a r iha ihr =>
    intro hl hn L m h
    obtain ⟨m', h1, h2, h3⟩ := iha hl.1 hn.1 h
    obtain ⟨m'', h4, h5, h6⟩ := ihr hl.2 hn.2 h2
    refine ⟨m'', ?_, h5, fun d => ?_⟩
    · simp only [run, h1, okBind, h4]
    · obtain ⟨x, hx, hx'⟩ := h3 d
      obtain ⟨y, hy, hy'⟩ := h6 d
      exact ⟨x ++ y, by rw [hy, hx, List.append_assoc], by rw [List.map_append, hx', hy', added]⟩
  | keep e g r ih =>
    intro hl hn L m h
    obtain ⟨m', h1, h2, h3⟩ := ih hl hn (inv_keep h e g)
    refine ⟨m', h1, h2, fun d => ?_⟩
    obtain ⟨x, hx, hx'⟩ := h3 d
    simp only at hx
    by_cases hd : d = e
    · subst hd
      rw [if_pos rfl] at hx
      exact ⟨(m.next, g) :: x, by rw [hx]; simp, by simp [added, hx']⟩
    · rw [if_neg hd] at hx
      exact ⟨x, hx, by simp [added, hd, hx']⟩
  | pop c r ih => intro _ hn; exact hn.elim

/-- Every kept array is released by `delete[]`. -/
def AllArr (m : Mem) : Prop := ∀ d, ∀ x ∈ m.kept d, x.2 = .arr

/-- The same with `pop`: the function returns, or it stops at an empty container. -/
theorem run_pop (c : Code) : Locals c → Keeps c → ∀ {L m}, Inv L m → AllArr m →
    (∃ m', run c m = .ok m' ∧ Inv L m' ∧ AllArr m') ∨ run c m = .error (.error "assert: the container is not empty") := by
  induction c with
  | done => intro _ _ L m h ha; exact .inl ⟨m, rfl, h, ha⟩
  | loc g r ih =>
    intro hl hk L m h ha
    obtain ⟨rfl, hl⟩ := hl
    rcases ih hl hk (inv_make h) ha with ⟨m', h1, h2, h3⟩ | he
    · obtain ⟨m'', h4, h5, h6, -⟩ := inv_release h2
      refine .inl ⟨m'', ?_, h5, ?_⟩
      · simp only [run, h1, okBind, h4]
      · intro d; rw [h6]; exact h3 d
    · right; simp only [run, he, errBind]
  | call a r iha ihr =>
    intro hl hk L m h ha
    rcases iha hl.1 hk.1 h ha with ⟨m', h1, h2, h3⟩ | he
    · rcases ihr hl.2 hk.2 h2 h3 with ⟨m'', h4, h5, h6⟩ | he
      · exact .inl ⟨m'', by simp only [run, h1, okBind, h4], h5, h6⟩
      · right; simp only [run, h1, okBind, he]
    · right; simp only [run, he, errBind]
  | keep e g r ih =>
    intro hl hk L m h ha
    obtain ⟨rfl, hk⟩ := hk
    refine ih hl hk (inv_keep h e .arr) ?_
    intro d x hx
    simp only at hx
    by_cases hd : d = e
    · rw [if_pos hd] at hx
      rcases List.mem_append.1 hx with hx | hx
      · exact ha d x hx
      · rw [List.mem_singleton.1 hx]
    · rw [if_neg hd] at hx; exact ha d x hx
  | pop c r ih =>
    intro hl hk L m h ha
    cases hc : m.kept c with
    | nil => right; simp only [run, hc]
    | cons y k =>
      obtain ⟨p, g⟩ := y
      have hg : g = .arr := ha c (p, g) (by rw [hc]; simp)
      subst hg
      obtain ⟨m', h1, h2, h3, -⟩ := inv_release (inv_pop h hc)
      have ha' : AllArr m' := by
        intro d x hx
        rw [h3] at hx
        simp only at hx
        by_cases hd : d = c
        · rw [if_pos hd] at hx; exact ha c x (by rw [hc]; exact List.mem_cons_of_mem _ hx)
        · rw [if_neg hd] at hx; exact ha d x hx
      rcases ih hl hk h2 ha' with ⟨m'', h4, h5, h6⟩ | he
      · exact .inl ⟨m'', by simp only [run, hc, h1, okBind, h4], h5, h6⟩
      · right; simp only [run, hc, h1, okBind, he]

theorem releaseAll_ok (l : List (Nat × Guard)) : ∀ {L : List Nat} {m : Mem}, (∀ x ∈ l, x.2 = .arr) → ids m = [] →
    Inv (l.map Prod.fst ++ L) m →
    ∃ m', releaseAll l m = .ok m' ∧ m'.live.Perm L ∧ m'.kept = m.kept := by
  induction l with
  | nil =>
    intro L m _ hi h
    refine ⟨m, rfl, ?_, rfl⟩
    have := h.1
    rw [hi] at this
    simpa using this
  | cons x l ih =>
    intro L m ha hi h
    obtain ⟨p, g⟩ := x
    have hg : g = .arr := ha (p, g) (by simp)
    subst hg
    obtain ⟨m', h1, h2, h3, -⟩ := inv_release (L := l.map Prod.fst ++ L) (p := p) (by simpa using h)
    have hi' : ids m' = [] := by rw [ids, h3]; exact hi
    obtain ⟨m'', h4, h5, h6⟩ := ih (fun x hx => ha x (List.mem_cons_of_mem _ hx)) hi' h2
    exact ⟨m'', by simp only [releaseAll, h1, okBind, h4], h5, h6.trans h3⟩

/-- The destructor leaves the arrays that are not of the object. -/
theorem destroy_ok {L : List Nat} {m : Mem} (h : Inv L m) (ha : AllArr m) :
    ∃ m', destroy m = .ok m' ∧ m'.live.Perm L ∧ ∀ d, m'.kept d = [] := by
  have hi : Inv ((m.kept false ++ m.kept true).map Prod.fst ++ L) { m with kept := fun _ => [] } := by
    refine ⟨?_, h.2.1, h.2.2⟩
    simpa [ids] using h.1
  obtain ⟨m', h1, h2, h3⟩ := releaseAll_ok _ (by
    intro x hx
    rcases List.mem_append.1 hx with hx | hx
    · exact ha _ x hx
    · exact ha _ x hx) rfl hi
  exact ⟨m', h1, h2, fun d => by rw [h3]⟩

theorem releaseAll_one (l : List (Nat × Guard)) : ∀ {L : List Nat} {m : Mem}, (∀ x ∈ l, x.2 ≠ .raw) → (∃ x ∈ l, x.2 = .one) →
    ids m = [] → Inv (l.map Prod.fst ++ L) m → releaseAll l m = .error (.ub "delete of memory of new[]") := by
  induction l with
  | nil => intro L m _ h; obtain ⟨x, hx, -⟩ := h; cases hx
  | cons x l ih =>
    intro L m hr h hi hv
    obtain ⟨p, g⟩ := x
    cases g with
    | raw => exact absurd rfl (hr (p, .raw) (by simp))
    | one => rfl
    | arr =>
      obtain ⟨m', h1, h2, h3, -⟩ := inv_release (L := l.map Prod.fst ++ L) (p := p) (by simpa using hv)
      have hi' : ids m' = [] := by rw [ids, h3]; exact hi
      obtain ⟨y, hy, hy'⟩ := h
      have : ∃ x ∈ l, x.2 = Guard.one := by
        rcases List.mem_cons.1 hy with e | e
        · rw [e] at hy'; cases hy'
        · exact ⟨y, e, hy'⟩
      simp only [releaseAll, h1, okBind, ih (fun x hx => hr x (List.mem_cons_of_mem _ hx)) this hi' h2]

theorem destroy_one {L : List Nat} {m : Mem} (h : Inv L m) (hr : ∀ d, ∀ x ∈ m.kept d, x.2 ≠ .raw)
    (ho : ∃ d, ∃ x ∈ m.kept d, x.2 = .one) : destroy m = .error (.ub "delete of memory of new[]") := by
  have hi : Inv ((m.kept false ++ m.kept true).map Prod.fst ++ L) { m with kept := fun _ => [] } := by
    refine ⟨?_, h.2.1, h.2.2⟩
    simpa [ids] using h.1
  refine releaseAll_one _ ?_ ?_ rfl hi
  · intro x hx
    rcases List.mem_append.1 hx with hx | hx
    · exact hr _ x hx
    · exact hr _ x hx
  · obtain ⟨d, x, hx, hx'⟩ := ho
    cases d
    · exact ⟨x, List.mem_append_left _ hx, hx'⟩
    · exact ⟨x, List.mem_append_right _ hx, hx'⟩

/-- Every local array has a smart pointer. -/
def Guarded : Code → Prop
  | .done => True
  | .loc g r => g ≠ .raw ∧ Guarded r
  | .call c r => Guarded c ∧ Guarded r
  | .keep _ _ r => Guarded r
  | .pop _ r => Guarded r

/-- One local array under `shared_ptr<T>` is enough for undefined behaviour. -/
theorem run_one (c : Code) : Guarded c → NoPop c → ¬Locals c → ∀ {L m}, Inv L m →
    run c m = .error (.ub "delete of memory of new[]") := by
  induction c with
  | done => intro _ _ h; exact (h trivial).elim
  | loc g r ih =>
    intro hg hn hl L m h
    by_cases hr : Locals r
    · obtain ⟨m', h1, -, -⟩ := run_ok r hr hn (inv_make h)
      cases g with
      | arr => exact (hl ⟨rfl, hr⟩).elim
      | raw => exact (hg.1 rfl).elim
      | one => simp only [run, h1, okBind, Mem.release]
    · simp only [run, ih hg.2 hn hr (inv_make h), errBind]
  | call a r iha ihr =>
    intro hg hn hl L m h
    by_cases ha : Locals a
    · obtain ⟨m', h1, h2, -⟩ := run_ok a ha hn.1 h
      have hr : ¬Locals r := fun hr => hl ⟨ha, hr⟩
      simp only [run, h1, okBind, ihr hg.2 hn.2 hr h2]
    · simp only [run, iha hg.1 hn.1 ha h, errBind]
  | keep e g r ih => intro hg hn hl L m h; exact ih hg hn hl (inv_keep h e g)
  | pop c r ih => intro _ hn; exact hn.elim

theorem guarded_of_locals : ∀ {c : Code}, Locals c → Guarded c
  | .done, _ => trivial
  | .loc g r, h => ⟨(fun e => by rw [h.1] at e; cases e), guarded_of_locals h.2⟩
  | .call _ _, h => ⟨guarded_of_locals h.1, guarded_of_locals h.2⟩
  | .keep _ _ r, h => guarded_of_locals (c := r) h
  | .pop _ r, h => guarded_of_locals (c := r) h

/-- A function without `pop`, that keeps nothing and whose locals are released by `delete[]`. -/
def Plain (c : Code) : Prop := Locals c ∧ NoPop c ∧ ∀ d, added d c = []

theorem Plain.done : Plain .done := ⟨trivial, trivial, fun _ => rfl⟩
theorem Plain.loc {r : Code} (h : Plain r) : Plain (.loc .arr r) := ⟨⟨rfl, h.1⟩, h.2.1, h.2.2⟩
theorem Plain.call {c r : Code} (hc : Plain c) (h : Plain r) : Plain (.call c r) :=
  ⟨⟨hc.1, h.1⟩, ⟨hc.2.1, h.2.1⟩, fun d => by rw [added, hc.2.2, h.2.2]; rfl⟩

theorem Plain.calls {c : Nat → Code} (hc : ∀ i, Plain (c i)) : ∀ n {r : Code}, Plain r → Plain (calls c n r)
  | 0, _, h => h
  | n + 1, _, h => (hc n).call (Plain.calls hc n h)

end Verif.Lemmas.Arrays
