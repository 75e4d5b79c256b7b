import Verif.Model.Ownership

/-! The invariant of `Verif/Model/Ownership.lean`: the allocated objects are those the guards own and the rest; an action
adds to the rest exactly what it allocates and gives to no guard. -/

namespace Verif.Lemmas.Own
open Verif.Model Own Integer

/-- The objects a list of guards owns. -/
def owned (gs : List Guard) : List (Nat × Kind) := gs.filterMap fun g => g.ptr.map fun p => (p, g.kind)

theorem owned_nil : owned [] = [] := rfl

theorem owned_none (k : Kind) (gs : List Guard) : owned (⟨k, none⟩ :: gs) = owned gs := rfl

theorem owned_some (k : Kind) (p : Nat) (gs : List Guard) : owned (⟨k, some p⟩ :: gs) = (p, k) :: owned gs := rfl

theorem owned_append (a b : List Guard) : owned (a ++ b) = owned a ++ owned b := by
  simp [owned, List.filterMap_append]

theorem owned_empty (ks : List Kind) : owned (ks.map Guard.empty) = [] := by
  induction ks with
  | nil => rfl
  | cons k ks ih => exact ih

/-- Pointers differ and are below `next`. -/
structure HeapOk (h : Heap) : Prop where
  nodup : (h.live.map Prod.fst).Nodup
  lt : ∀ o ∈ h.live, o.1 < h.next

theorem HeapOk.new {h : Heap} (k : Kind) (ok : HeapOk h) : HeapOk (h.new k).1 := by
  refine ⟨?_, ?_⟩
  · show (h.next :: h.live.map Prod.fst).Nodup
    refine List.nodup_cons.2 ⟨fun hm => ?_, ok.nodup⟩
    obtain ⟨o, ho, he⟩ := List.mem_map.1 hm
    have := ok.lt o ho
    omega
  · intro o ho
    show o.1 < h.next + 1
    rcases List.mem_cons.1 ho with rfl | ho
    · exact Nat.lt_succ_self _
    · exact Nat.lt_succ_of_lt (ok.lt o ho)

theorem HeapOk.erase {h : Heap} (o : Nat × Kind) (ok : HeapOk h) : HeapOk ⟨h.next, h.live.erase o⟩ :=
  ⟨(List.erase_sublist.map Prod.fst).nodup ok.nodup, fun x hx => ok.lt x (List.mem_of_mem_erase hx)⟩

/-- Freeing an object that is allocated. -/
theorem free_ok {h : Heap} (ok : HeapOk h) {k : Kind} {p : Nat} {l : List (Nat × Kind)} (hp : h.live.Perm ((p, k) :: l)) :
    ∃ h', h.free k p = .ok h' ∧ HeapOk h' ∧ h'.live.Perm l := by
  have hm : (p, k) ∈ h.live := hp.symm.subset (List.mem_cons_self ..)
  refine ⟨_, if_pos hm, ok.erase _, ?_⟩
  have := hp.erase (p, k)
  rwa [List.erase_cons_head] at this

/-- Destroying a guard. -/
theorem drop_ok (g : Guard) {h : Heap} (ok : HeapOk h) {l : List (Nat × Kind)} (hp : h.live.Perm (owned [g] ++ l)) :
    ∃ h', g.drop h = .ok h' ∧ HeapOk h' ∧ h'.live.Perm l := by
  obtain ⟨k, p⟩ := g
  cases p with
  | none => exact ⟨h, rfl, ok, hp⟩
  | some p => exact free_ok ok hp

/-- Destroying guards. -/
theorem drops_ok : ∀ (gs : List Guard) {h : Heap}, HeapOk h → ∀ {l : List (Nat × Kind)}, h.live.Perm (owned gs ++ l) →
    ∃ h', drops gs h = .ok h' ∧ HeapOk h' ∧ h'.live.Perm l
  | [], h, ok, _, hp => ⟨h, rfl, ok, hp⟩
  | g :: gs, h, ok, l, hp => by
    have he : owned (g :: gs) = owned [g] ++ owned gs := owned_append [g] gs
    rw [he, List.append_assoc] at hp
    obtain ⟨h1, e1, ok1, p1⟩ := drop_ok g ok hp
    obtain ⟨h2, e2, ok2, p2⟩ := drops_ok gs ok1 p1
    refine ⟨h2, ?_, ok2, p2⟩
    unfold drops
    rw [e1]
    exact e2

/-- The objects are those of the guards and `rest`. -/
structure Inv (s : St) (rest : List (Nat × Kind)) : Prop where
  ok : HeapOk s.heap
  perm : s.heap.live.Perm (owned s.locals ++ (owned s.members ++ rest))

mutual
/-- The objects an action allocates and gives to no guard. -/
def leak : Act → List Kind
  | .ctor .point => [.point]
  | .ctor .ctx => [.ctx]
  | .ctor _ => []
  | .reset _ => []
  | .raw k => [k]
  | .member _ => []
  | .call body => leaks body
/-- The same for a body. -/
def leaks : List Act → List Kind
  | [] => []
  | a :: as => leak a ++ leaks as
end

mutual
/-- The member numbers are below `n`. -/
def fit (n : Nat) : Act → Prop
  | .member i => i < n
  | .call body => fits n body
  | _ => True
/-- The same for a body. -/
def fits (n : Nat) : List Act → Prop
  | [] => True
  | a :: as => fit n a ∧ fits n as
end

/-- What a run of actions with leaks `ks` does. -/
structure Eff (s s' : St) (rest : List (Nat × Kind)) (ks : List Kind) : Prop where
  len : s'.members.length = s.members.length
  inv : ∃ lost : List (Nat × Kind), lost.map Prod.snd = ks ∧ Inv s' (lost ++ rest)

theorem perm_aux {α : Type} (a b c d : List α) : (a ++ (b ++ (c ++ d))).Perm (c ++ (a ++ (b ++ d))) := by
  have h1 : (a ++ (b ++ (c ++ d))) = (a ++ b) ++ c ++ d := by simp
  have h2 : (c ++ (a ++ (b ++ d))) = c ++ (a ++ b) ++ d := by simp
  rw [h1, h2]
  exact List.Perm.append_right d List.perm_append_comm

theorem new_rest {s : St} {rest : List (Nat × Kind)} (k : Kind) (hi : Inv s rest) :
    Inv { s with heap := (s.heap.new k).1 } ([(s.heap.next, k)] ++ rest) := by
  refine ⟨hi.ok.new k, ?_⟩
  show ((s.heap.next, k) :: s.heap.live).Perm _
  refine (hi.perm.cons _).trans ?_
  exact (perm_aux (owned s.locals) (owned s.members) [(s.heap.next, k)] rest).symm

theorem new_local {s : St} {rest : List (Nat × Kind)} (k : Kind) (hi : Inv s rest) :
    Inv { s with heap := (s.heap.new k).1, locals := ⟨k, some s.heap.next⟩ :: s.locals } rest :=
  ⟨hi.ok.new k, hi.perm.cons _⟩

theorem owned_set (gs : List Guard) (i : Nat) (g g' : Guard) (h : gs[i]? = some g) :
    ∃ l, (owned gs).Perm (owned [g] ++ l) ∧ (owned (gs.set i g')).Perm (owned [g'] ++ l) := by
  induction gs generalizing i with
  | nil => cases h
  | cons x xs ih =>
    cases i with
    | zero =>
      cases h
      exact ⟨owned xs, .of_eq (owned_append [g] xs), .of_eq (owned_append [g'] xs)⟩
    | succ i =>
      obtain ⟨l, h1, h2⟩ := ih i h
      refine ⟨owned [x] ++ l, ?_, ?_⟩
      · have e : owned (x :: xs) = owned [x] ++ owned xs := owned_append [x] xs
        rw [e]
        refine (h1.append_left _).trans ?_
        rw [← List.append_assoc, ← List.append_assoc]
        exact List.Perm.append_right _ List.perm_append_comm
      · have e : owned ((x :: xs).set (i + 1) g') = owned [x] ++ owned (xs.set i g') := owned_append [x] (xs.set i g')
        rw [e]
        refine (h2.append_left _).trans ?_
        rw [← List.append_assoc, ← List.append_assoc]
        exact List.Perm.append_right _ List.perm_append_comm

theorem member_ok (i : Nat) (s : St) (rest : List (Nat × Kind)) (hi : Inv s rest) (hf : i < s.members.length) :
    ∃ s', run (.member i) s = .ok s' ∧ s'.members.length = s.members.length ∧ s'.locals = s.locals ∧ Inv s' rest := by
  have hg : s.members[i]? = some s.members[i] := List.getElem?_eq_getElem hf
  generalize s.members[i] = g at hg
  obtain ⟨l, h1, h2⟩ := owned_set s.members i g ⟨g.kind, some s.heap.next⟩ hg
  have hp : (s.heap.new g.kind).1.live.Perm (owned [g] ++ ((s.heap.next, g.kind) :: (l ++ (owned s.locals ++ rest)))) := by
    show ((s.heap.next, g.kind) :: s.heap.live).Perm _
    refine (hi.perm.cons _).trans ?_
    refine List.Perm.trans (List.Perm.cons _ ?_) List.perm_middle.symm
    rw [← List.append_assoc]
    refine (List.Perm.append_right _ List.perm_append_comm).trans ?_
    rw [List.append_assoc]
    refine (List.Perm.append_right _ h1).trans ?_
    rw [List.append_assoc]
  obtain ⟨h', e, ok', p'⟩ := drop_ok g (hi.ok.new g.kind) hp
  refine ⟨⟨h', s.members.set i ⟨g.kind, some s.heap.next⟩, s.locals⟩, ?_, List.length_set, rfl, ok', ?_⟩
  · unfold run
    rw [hg]
    show ((Guard.reset g (s.heap.new g.kind).1 s.heap.next) >>= fun x =>
      (Except.ok { s with heap := x.2, members := s.members.set i x.1 } : Res St)) = _
    unfold Guard.reset
    rw [e]
    rfl
  · refine p'.trans ?_
    refine List.Perm.symm ?_
    show (owned s.locals ++ (owned (s.members.set i ⟨g.kind, some s.heap.next⟩) ++ rest)).Perm _
    rw [← List.append_assoc]
    refine (List.Perm.append_right _ List.perm_append_comm).trans ?_
    rw [List.append_assoc]
    exact List.Perm.append_right _ h2

mutual
theorem run_ok : ∀ (a : Act) (s : St) (rest : List (Nat × Kind)), Inv s rest → fit s.members.length a →
    ∃ s', run a s = .ok s' ∧ Eff s s' rest (leak a) ∧ (∀ b, a = .call b → s'.locals = s.locals)
  | .ctor .bn, s, rest, hi, _ => by
    refine ⟨⟨(s.heap.new .bn).1, s.members, ⟨.bn, some s.heap.next⟩ :: s.locals⟩, by unfold run; rfl,
      ⟨rfl, [], rfl, new_local .bn hi⟩, fun _ h => by cases h⟩
  | .ctor .group, s, rest, hi, _ => by
    refine ⟨⟨(s.heap.new .group).1, s.members, ⟨.group, some s.heap.next⟩ :: s.locals⟩, by unfold run; rfl,
      ⟨rfl, [], rfl, new_local .group hi⟩, fun _ h => by cases h⟩
  | .ctor .point, s, rest, hi, _ => by
    refine ⟨⟨(s.heap.new .point).1, s.members, ⟨.point, none⟩ :: s.locals⟩, by unfold run; rfl,
      ⟨rfl, [(s.heap.next, .point)], rfl, ?_⟩, fun _ h => by cases h⟩
    exact ⟨(new_rest .point hi).ok, (new_rest .point hi).perm⟩
  | .ctor .ctx, s, rest, hi, _ => by
    refine ⟨⟨(s.heap.new .ctx).1, s.members, ⟨.ctx, none⟩ :: s.locals⟩, by unfold run; rfl,
      ⟨rfl, [(s.heap.next, .ctx)], rfl, ?_⟩, fun _ h => by cases h⟩
    exact ⟨(new_rest .ctx hi).ok, (new_rest .ctx hi).perm⟩
  | .reset k, s, rest, hi, _ => by
    refine ⟨⟨(s.heap.new k).1, s.members, ⟨k, some s.heap.next⟩ :: s.locals⟩, by unfold run; rfl,
      ⟨rfl, [], rfl, new_local k hi⟩, fun _ h => by cases h⟩
  | .raw k, s, rest, hi, _ => by
    refine ⟨{ s with heap := (s.heap.new k).1 }, by unfold run; rfl, ⟨rfl, [(s.heap.next, k)], rfl, new_rest k hi⟩, fun _ h => by cases h⟩
  | .member i, s, rest, hi, hf => by
    obtain ⟨s', e, h1, h2, h3⟩ := member_ok i s rest hi (by unfold fit at hf; exact hf)
    exact ⟨s', e, ⟨h1, [], rfl, h3⟩, fun _ h => by cases h⟩
  | .call body, s, rest, hi, hf => by
    have hi' : Inv { s with locals := [] } (owned s.locals ++ rest) := by
      refine ⟨hi.ok, hi.perm.trans ?_⟩
      show (owned s.locals ++ (owned s.members ++ rest)).Perm (owned s.members ++ (owned s.locals ++ rest))
      rw [← List.append_assoc, ← List.append_assoc]
      exact List.Perm.append_right _ List.perm_append_comm
    obtain ⟨s1, e1, hl, lost, hk, hi1⟩ := runs_ok body { s with locals := [] } (owned s.locals ++ rest) hi'
      (by unfold fit at hf; exact hf)
    obtain ⟨h2, e2, ok2, p2⟩ := drops_ok s1.locals hi1.ok hi1.perm
    refine ⟨⟨h2, s1.members, s.locals⟩, ?_, ⟨hl, lost, ?_, ok2, ?_⟩, fun _ _ => rfl⟩
    · unfold run
      rw [e1]
      show (drops s1.locals s1.heap >>= fun h => (Except.ok { s1 with heap := h, locals := s.locals } : Res St)) = _
      rw [e2]
      rfl
    · rw [hk]
      unfold leak
      rfl
    · refine p2.trans ?_
      exact (perm_aux (owned s1.members) lost (owned s.locals) rest)
theorem runs_ok : ∀ (as : List Act) (s : St) (rest : List (Nat × Kind)), Inv s rest → fits s.members.length as →
    ∃ s', runs as s = .ok s' ∧ Eff s s' rest (leaks as)
  | [], s, rest, hi, _ => ⟨s, by unfold runs; rfl, rfl, [], by unfold leaks; rfl, hi⟩
  | a :: as, s, rest, hi, hf => by
    unfold fits at hf
    obtain ⟨s1, e1, ⟨hl, lost, hk, hi1⟩, _⟩ := run_ok a s rest hi hf.1
    obtain ⟨s2, e2, hl2, lost2, hk2, hi2⟩ := runs_ok as s1 (lost ++ rest) hi1 (by rw [hl]; exact hf.2)
    refine ⟨s2, ?_, hl2.trans hl, lost ++ lost2, ?_, hi2.ok, ?_⟩
    · unfold runs
      rw [e1]
      exact e2
    · rw [List.map_append, hk, hk2]
      rw [leaks]
    · refine hi2.perm.trans ?_
      refine List.Perm.append_left _ (List.Perm.append_left _ ?_)
      rw [← List.append_assoc]
      exact List.Perm.append_right _ List.perm_append_comm
end

end Verif.Lemmas.Own
