import Verif.Lemmas.WireCalls
import Verif.Model.WireCap

/-! # Two parties over connections that hold only so many bytes (C95) -/

namespace Verif.Lemmas.WireCap

open Verif.Model.Wire Verif.Spec Verif.Lemmas.Wire

/-! ### The steps of one party as a relation -/

/-- A party whose next statement flushes the buffer of `c` first. -/
inductive Pushes : List Act → Chan → Prop
  | flush (c : Chan) (r : List Act) : Pushes (.flush c :: r) c
  | recv (c : Chan) (l : String) (n : Nat) (r : List Act) : Pushes (.recv c l n :: r) c
  | meet (m : Meet) (r : List Act) : Pushes (.meet m :: r) .io

inductive BAct (cap : Nat) : List Act → Net → Net → Net → List Act → Net → Net → Net → Prop
  | send (c : Chan) (l : String) (n : Nat) (r : List Act) (p i o : Net) :
      BAct cap (.send c l n :: r) p i o r (app p c (List.replicate n l)) i o
  | flush (c : Chan) (r : List Act) (p i o : Net) (h : p c = []) : BAct cap (.flush c :: r) p i o r p i o
  | done (c : Chan) (l : String) (r : List Act) (p i o : Net) (h : p c = []) : BAct cap (.recv c l 0 :: r) p i o r p i o
  | take (c : Chan) (l : String) (n : Nat) (r : List Act) (p i o : Net) (h : p c = []) :
      BAct cap (.recv c l (n + 1) :: r) p (prep i c [l]) o (.recv c l n :: r) p i o
  | move (a : List Act) (c : Chan) (x : String) (p i o : Net) (ha : Pushes a c) (h : (o c).length < cap) :
      BAct cap a (prep p c [x]) i o a p i (app o c [x])

theorem upd_self (f : Net) (c : Chan) : upd f c (f c) = f := by
  funext d; by_cases h : d = c <;> simp_all [upd]

theorem upd_at (f : Net) (c : Chan) (x : List String) : upd f c x c = x := by simp [upd]

theorem upd_upd (f : Net) (c : Chan) (x y : List String) : upd (upd f c x) c y = upd f c y := by
  funext d; by_cases h : d = c <;> simp_all [upd]

theorem prep_at (f : Net) (c : Chan) (x : List String) : prep f c x c = x ++ f c := by simp [prep, upd]

theorem app_at (f : Net) (c : Chan) (x : List String) : app f c x c = f c ++ x := by simp [app, upd]

theorem prep_ne (f : Net) {c d : Chan} (x : List String) (h : d ≠ c) : prep f c x d = f d := by simp [prep, upd, h]

theorem app_ne (f : Net) {c d : Chan} (x : List String) (h : d ≠ c) : app f c x d = f d := by simp [app, upd, h]

theorem prep_upd {f : Net} {c : Chan} {x : String} {xs : List String} (h : f c = x :: xs) : f = prep (upd f c xs) c [x] := by
  funext d; by_cases hd : d = c <;> simp_all [prep, upd]

theorem move_bact {cap : Nat} {s t s' t' : Side} {c : Chan} (ha : Pushes s.todo c) (h : moveByte cap s t c = some (s', t')) :
    BAct cap s.todo s.pend s.inc t.inc s'.todo s'.pend s'.inc t'.inc ∧ t'.todo = t.todo ∧ t'.pend = t.pend := by
  unfold moveByte at h
  cases e : s.pend c with
  | nil => simp [e] at h
  | cons x xs =>
    simp only [e] at h
    split at h
    · rename_i hc
      simp only [Option.some.injEq, Prod.mk.injEq] at h
      obtain ⟨rfl, rfl⟩ := h
      refine ⟨?_, rfl, rfl⟩
      have := BAct.move s.todo c x (upd s.pend c xs) s.inc t.inc ha hc
      rw [← prep_upd e] at this
      exact this
    · simp at h

theorem act_bact {cap : Nat} {s t s' t' : Side} (h : actCap cap s t = some (s', t')) :
    BAct cap s.todo s.pend s.inc t.inc s'.todo s'.pend s'.inc t'.inc ∧ t'.todo = t.todo ∧ t'.pend = t.pend := by
  unfold actCap at h
  split at h
  · simp at h
  · rename_i e
    simp only [Option.some.injEq, Prod.mk.injEq] at h
    obtain ⟨rfl, rfl⟩ := h
    rw [e]
    exact ⟨.send .., rfl, rfl⟩
  · rename_i c r e
    split at h
    · rename_i hp
      simp only [Option.some.injEq, Prod.mk.injEq] at h
      obtain ⟨rfl, rfl⟩ := h
      rw [e]
      exact ⟨.flush _ _ _ _ _ hp, rfl, rfl⟩
    · exact move_bact (e ▸ .flush ..) h
  · rename_i c l r e
    split at h
    · rename_i hp
      simp only [Option.some.injEq, Prod.mk.injEq] at h
      obtain ⟨rfl, rfl⟩ := h
      rw [e]
      exact ⟨.done _ _ _ _ _ _ hp, rfl, rfl⟩
    · exact move_bact (e ▸ .recv ..) h
  · rename_i c l n r e
    split at h
    · rename_i hp
      cases ei : s.inc c with
      | nil => simp [ei] at h
      | cons x xs =>
        simp only [ei] at h
        split at h
        · rename_i hx
          simp only [Option.some.injEq, Prod.mk.injEq] at h
          obtain ⟨rfl, rfl⟩ := h
          subst hx
          have := BAct.take (cap := cap) c x n r s.pend (upd s.inc c xs) t.inc hp
          rw [← prep_upd ei, ← e] at this
          exact ⟨this, rfl, rfl⟩
        · simp at h
    · exact move_bact (e ▸ .recv ..) h
  · rename_i e
    exact move_bact (e ▸ .meet ..) h

theorem move_of {cap : Nat} {a b : List Act} {c : Chan} {x : String} {p i o q : Net} (h : (o c).length < cap) :
    moveByte cap ⟨a, prep p c [x], i⟩ ⟨b, q, o⟩ c = some (⟨a, p, i⟩, ⟨b, q, app o c [x]⟩) := by
  simp only [moveByte, prep_at, List.cons_append, List.nil_append, if_pos h]
  have : upd (prep p c [x]) c (p c) = p := by rw [prep, upd_upd, upd_self]
  rw [this]
  rfl

theorem bact_act {cap : Nat} {a a' b : List Act} {p i o p' i' o' q : Net} (h : BAct cap a p i o a' p' i' o') :
    actCap cap ⟨a, p, i⟩ ⟨b, q, o⟩ = some (⟨a', p', i'⟩, ⟨b, q, o'⟩) := by
  cases h with
  | send => rfl
  | flush _ _ _ _ _ h => simp [actCap, h]
  | done _ _ _ _ _ _ h => simp [actCap, h]
  | take c l n r _ i' _ h =>
    have : upd (prep i' c [l]) c (i' c) = i' := by rw [prep, upd_upd, upd_self]
    simp [actCap, h, prep_at, this]
  | move _ c x _ _ _ ha h =>
    have hn : (prep p' c [x]) c ≠ [] := by simp [prep_at]
    cases ha with
    | flush => simp only [actCap, if_neg hn]; exact move_of h
    | recv _ _ n _ => cases n <;> (simp only [actCap, if_neg hn]; exact move_of h)
    | meet => exact move_of h

/-! ### Steps can be exchanged -/

theorem BAct.det {cap : Nat} {a a1 a2 : List Act} {p i o p1 i1 o1 p2 i2 o2 : Net} (h : BAct cap a p i o a1 p1 i1 o1)
    (g : BAct cap a p i o a2 p2 i2 o2) : a1 = a2 ∧ p1 = p2 ∧ i1 = i2 ∧ o1 = o2 := by
  have h1 := bact_act (b := []) (q := none') h
  have h2 := bact_act (b := []) (q := none') g
  rw [h1] at h2
  simp only [Option.some.injEq, Prod.mk.injEq, Side.mk.injEq] at h2
  exact ⟨h2.1.1, h2.1.2.1, h2.1.2.2, h2.2.2.2⟩

theorem room {cap : Nat} {f : Net} {c d : Chan} {x : String} (h : (prep f d [x] c).length < cap) : (f c).length < cap := by
  by_cases e : c = d
  · subst e; rw [prep_at] at h; simp at h; omega
  · rwa [prep_ne _ _ e] at h

theorem BAct.comm {cap : Nat} {a a1 b b1 : List Act} {p i o p1 i1 o1 q q1 o2 i2 : Net} (h : BAct cap a p i o a1 p1 i1 o1)
    (g : BAct cap b q o i b1 q1 o2 i2) : ∃ o3 i3, BAct cap b q o1 i1 b1 q1 o3 i3 ∧ BAct cap a p i2 o2 a1 p1 i3 o3 := by
  cases h with
  | send =>
    cases g with
    | send => exact ⟨_, _, .send .., .send ..⟩
    | flush _ _ _ _ _ g => exact ⟨_, _, .flush _ _ _ _ _ g, .send ..⟩
    | done _ _ _ _ _ _ g => exact ⟨_, _, .done _ _ _ _ _ _ g, .send ..⟩
    | take _ _ _ _ _ _ _ g => exact ⟨_, _, .take _ _ _ _ _ _ _ g, .send ..⟩
    | move _ _ _ _ _ _ ga g => exact ⟨_, _, .move _ _ _ _ _ _ ga g, .send ..⟩
  | flush _ _ _ _ _ h =>
    cases g with
    | send => exact ⟨_, _, .send .., .flush _ _ _ _ _ h⟩
    | flush _ _ _ _ _ g => exact ⟨_, _, .flush _ _ _ _ _ g, .flush _ _ _ _ _ h⟩
    | done _ _ _ _ _ _ g => exact ⟨_, _, .done _ _ _ _ _ _ g, .flush _ _ _ _ _ h⟩
    | take _ _ _ _ _ _ _ g => exact ⟨_, _, .take _ _ _ _ _ _ _ g, .flush _ _ _ _ _ h⟩
    | move _ _ _ _ _ _ ga g => exact ⟨_, _, .move _ _ _ _ _ _ ga g, .flush _ _ _ _ _ h⟩
  | done _ _ _ _ _ _ h =>
    cases g with
    | send => exact ⟨_, _, .send .., .done _ _ _ _ _ _ h⟩
    | flush _ _ _ _ _ g => exact ⟨_, _, .flush _ _ _ _ _ g, .done _ _ _ _ _ _ h⟩
    | done _ _ _ _ _ _ g => exact ⟨_, _, .done _ _ _ _ _ _ g, .done _ _ _ _ _ _ h⟩
    | take _ _ _ _ _ _ _ g => exact ⟨_, _, .take _ _ _ _ _ _ _ g, .done _ _ _ _ _ _ h⟩
    | move _ _ _ _ _ _ ga g => exact ⟨_, _, .move _ _ _ _ _ _ ga g, .done _ _ _ _ _ _ h⟩
  | take c l n r _ _ _ h =>
    cases g with
    | send => exact ⟨_, _, .send .., .take _ _ _ _ _ _ _ h⟩
    | flush _ _ _ _ _ g => exact ⟨_, _, .flush _ _ _ _ _ g, .take _ _ _ _ _ _ _ h⟩
    | done _ _ _ _ _ _ g => exact ⟨_, _, .done _ _ _ _ _ _ g, .take _ _ _ _ _ _ _ h⟩
    | take _ _ _ _ _ _ _ g => exact ⟨_, _, .take _ _ _ _ _ _ _ g, .take _ _ _ _ _ _ _ h⟩
    | move _ d x _ _ _ ga g =>
      refine ⟨_, _, .move _ _ _ _ _ _ ga (room g), ?_⟩
      rw [app_prep]
      exact .take _ _ _ _ _ _ _ h
  | move _ c x _ _ _ ha h =>
    cases g with
    | send => exact ⟨_, _, .send .., .move _ _ _ _ _ _ ha h⟩
    | flush _ _ _ _ _ g => exact ⟨_, _, .flush _ _ _ _ _ g, .move _ _ _ _ _ _ ha h⟩
    | done _ _ _ _ _ _ g => exact ⟨_, _, .done _ _ _ _ _ _ g, .move _ _ _ _ _ _ ha h⟩
    | take _ _ _ _ _ _ _ g =>
      refine ⟨_, _, ?_, .move _ _ _ _ _ _ ha (room h)⟩
      rw [app_prep]
      exact .take _ _ _ _ _ _ _ g
    | move _ _ _ _ _ _ ga g => exact ⟨_, _, .move _ _ _ _ _ _ ga g, .move _ _ _ _ _ _ ha h⟩

theorem BAct.not_meet {cap : Nat} {a a1 : List Act} {p i o p1 i1 o1 : Net} {m : Meet}
    (h : BAct cap (.meet m :: a) p i o a1 p1 i1 o1) : p .io ≠ [] := by
  cases h with
  | move _ c x _ _ _ ha h => cases ha; simp [prep_at]

theorem diamond (cap : Nat) : Diamond (StepCap cap) := by
  intro s t u h g
  cases h with
  | @left s t s1 t1 h =>
    cases g with
    | left g => rw [h] at g; simp only [Option.some.injEq] at g; exact .inl g
    | @right _ _ s2 t2 g =>
      obtain ⟨h, h1, h2⟩ := act_bact h
      obtain ⟨g, g1, g2⟩ := act_bact g
      obtain ⟨o3, i3, k1, k2⟩ := h.comm g
      refine .inr ⟨(⟨s1.todo, s1.pend, i3⟩, ⟨t2.todo, t2.pend, o3⟩), .right ?_, .left ?_⟩
      · have := bact_act (b := s1.todo) (q := s1.pend) k1
        obtain ⟨ta, tp, ti⟩ := t1
        subst h1 h2
        exact this
      · have := bact_act (b := t2.todo) (q := t2.pend) k2
        obtain ⟨sa, sp, si⟩ := s2
        subst g1 g2
        exact this
    | meet hs ht ps pt =>
      obtain ⟨h, -⟩ := act_bact h
      rw [hs] at h
      exact absurd ps h.not_meet
  | @right s t s1 t1 h =>
    cases g with
    | right g => rw [h] at g; simp only [Option.some.injEq, Prod.mk.injEq] at g; obtain ⟨rfl, rfl⟩ := g; exact .inl rfl
    | @left _ _ s2 t2 g =>
      obtain ⟨h, h1, h2⟩ := act_bact h
      obtain ⟨g, g1, g2⟩ := act_bact g
      obtain ⟨o3, i3, k1, k2⟩ := h.comm g
      refine .inr ⟨(⟨s2.todo, s2.pend, o3⟩, ⟨t1.todo, t1.pend, i3⟩), .left ?_, .right ?_⟩
      · have := bact_act (b := t1.todo) (q := t1.pend) k1
        obtain ⟨ta, tp, ti⟩ := s1
        subst h1 h2
        exact this
      · have := bact_act (b := s2.todo) (q := s2.pend) k2
        obtain ⟨sa, sp, si⟩ := t2
        subst g1 g2
        exact this
    | meet hs ht ps pt =>
      obtain ⟨h, -⟩ := act_bact h
      rw [ht] at h
      exact absurd pt h.not_meet
  | meet hs ht ps pt =>
    cases g with
    | left g =>
      obtain ⟨g, -⟩ := act_bact g
      rw [hs] at g
      exact absurd ps g.not_meet
    | right g =>
      obtain ⟨g, -⟩ := act_bact g
      rw [ht] at g
      exact absurd pt g.not_meet
    | meet hs' ht' _ _ =>
      rw [hs] at hs'
      rw [ht] at ht'
      simp only [List.cons.injEq, Act.meet.injEq] at hs' ht'
      obtain ⟨-, rfl⟩ := hs'
      obtain ⟨-, rfl⟩ := ht'
      exact .inl rfl

theorem strip_all {α : Type} {R : α → α → Prop} (hd : Diamond R) {n m : Nat} {s s' t : α} (h : Steps R n s t) (ht : ∀ u, ¬ R t u)
    (g : Steps R m s s') : ∃ k, n = m + k ∧ Steps R k s' t := by
  induction g generalizing n with
  | zero s => exact ⟨n, by omega, h⟩
  | succ hr _ ih =>
    obtain ⟨k, e, hk⟩ := strip hd h ht hr
    obtain ⟨k', e', hk'⟩ := ih hk
    exact ⟨k', by omega, hk'⟩

/-- One run to a good end decides about all runs. -/
theorem always_of_one {α : Type} {R : α → α → Prop} {Good : α → Prop} (hd : Diamond R) (hg : ∀ s, Good s → ∀ u, ¬ R s u) {n : Nat}
    {s t : α} (h : Steps R n s t) (ht : Good t) : AlwaysEnds R Good s := by
  refine ⟨⟨n, fun m s' hm => ?_⟩, fun m s' hm => ?_⟩
  · obtain ⟨k, e, -⟩ := strip_all hd h (hg t ht) hm
    omega
  · obtain ⟨k, -, hk⟩ := strip_all hd h (hg t ht) hm
    cases hk with
    | zero => exact .inl ht
    | succ h _ => exact .inr ⟨_, h⟩

theorem done_stuck {cap : Nat} {s t : Side} (hs : s.Done) (ht : t.Done) (u : Side × Side) : ¬ StepCap cap (s, t) u := by
  intro h
  cases h with
  | left h => simp [actCap, hs.1] at h
  | right h => simp [actCap, ht.1] at h
  | meet h => simp [hs.1] at h

end Verif.Lemmas.WireCap
