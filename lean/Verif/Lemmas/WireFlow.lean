import Verif.Lemmas.WireCap

/-! # A run to the end over connections that hold only so many bytes (C95) -/

namespace Verif.Lemmas.WireCap

open Verif.Model.Wire Verif.Spec Verif.Lemmas.Wire

variable {cap : Nat}

def To (cap : Nat) (p q : Side × Side) : Prop := ∃ n, Steps (StepCap cap) n p q

theorem To.refl (p : Side × Side) : To cap p p := ⟨0, .zero p⟩

theorem To.trans {p q r : Side × Side} (h : To cap p q) (g : To cap q r) : To cap p r := by
  obtain ⟨n, h⟩ := h
  obtain ⟨m, g⟩ := g
  exact ⟨n + m, Wire.Steps.trans h g⟩

theorem To.one {p q : Side × Side} (h : StepCap cap p q) : To cap p q := ⟨1, Wire.Steps.single h⟩

theorem To.left {a a' b : List Act} {p i o p' i' o' q : Net} (h : BAct cap a p i o a' p' i' o') :
    To cap (⟨a, p, i⟩, ⟨b, q, o⟩) (⟨a', p', i'⟩, ⟨b, q, o'⟩) := .one (.left (bact_act h))

theorem To.right {a a' b : List Act} {p i o p' i' o' q : Net} (h : BAct cap a p i o a' p' i' o') :
    To cap (⟨b, q, o⟩, ⟨a, p, i⟩) (⟨b, q, o'⟩, ⟨a', p', i'⟩) := .one (.right (bact_act h))

theorem To.swap {s t s' t' : Side} (h : To cap (s, t) (s', t')) : To cap (t, s) (t', s') := by
  have sw : ∀ {n : Nat} {p q : Side × Side}, Steps (StepCap cap) n p q → Steps (StepCap cap) n (p.2, p.1) (q.2, q.1) := by
    intro n p q h
    induction h with
    | zero s => exact .zero _
    | succ h _ ih =>
      refine .succ ?_ ih
      cases h with
      | left h => exact .right h
      | right h => exact .left h
      | meet hs ht ps pt => exact .meet ht hs pt ps
  obtain ⟨n, h⟩ := h
  exact ⟨n, sw h⟩

/-! ### What one party still has to read of what the other has written -/

inductive Owes : List Act → List String → Prop
  | nil : Owes [] []
  | recv (l : String) (n : Nat) {r : List Act} {x : List String} (h : Owes r x) :
      Owes (.recv .io l n :: r) (List.replicate n l ++ x)
  | flush (c : Chan) {r : List Act} {x : List String} (h : Owes r x) : Owes (.flush c :: r) x

theorem Owes.append {r s : List Act} {x y : List String} (h : Owes r x) (g : Owes s y) : Owes (r ++ s) (x ++ y) := by
  induction h with
  | nil => exact g
  | recv l n _ ih => rw [List.append_assoc]; exact .recv l n ih
  | flush c _ ih => exact .flush c ih

theorem Owes.recvs (xs : List (String × Nat)) : Owes (recvs .io xs) (bytes xs) := by
  induction xs with
  | nil => exact .nil
  | cons x xs ih => exact .recv _ _ ih

theorem app_of_empty {f : Net} {c : Chan} (h : f c = []) (x : List String) : app f c x = prep f c x := by
  simp [app, prep, h]

/-- A party that flushes, and one that reads. -/
theorem drain (hc : 0 < cap) {r : List Act} {x : List String} (h : Owes r x) {a k : List Act} (ha : Pushes a .io) (p i j : Net)
    (hj : j .io = []) : To cap (⟨a, prep p .io x, i⟩, ⟨r ++ k, none', j⟩) (⟨a, p, i⟩, ⟨k, none', j⟩) := by
  induction h with
  | nil => rw [prep_nil]; exact .refl _
  | @recv l n r x _ ih =>
    induction n with
    | zero => exact .trans (.right (.done _ _ _ _ _ _ rfl)) ih
    | succ n ihn =>
      refine .trans (.left (p' := prep p .io (List.replicate n l ++ x)) (o' := app j .io [l]) (a' := a) (i' := i) ?_)
        (.trans (.right (i' := j) (o' := i) (p' := none') (a' := .recv .io l n :: (r ++ k)) ?_) ihn)
      · have : prep p .io (List.replicate (n + 1) l ++ x) = prep (prep p .io (List.replicate n l ++ x)) .io [l] := by
          rw [prep_prep]; rfl
        rw [this]
        exact .move _ _ _ _ _ _ ha (by rw [hj]; exact hc)
      · rw [app_of_empty hj]
        exact .take _ _ _ _ _ _ _ rfl
  | flush c _ ih => exact .trans (.right (.flush _ _ _ _ _ rfl)) ih

/-- A party that flushes into a connection that has room. -/
theorem fill {c : Chan} {a : List Act} (ha : Pushes a c) (z : List String) (p i q j : Net) (b : List Act)
    (h : (j c).length + z.length ≤ cap) : To cap (⟨a, prep p c z, i⟩, ⟨b, q, j⟩) (⟨a, p, i⟩, ⟨b, q, app j c z⟩) := by
  induction z generalizing j with
  | nil => rw [prep_nil, app_nil]; exact .refl _
  | cons x z ih =>
    simp only [List.length_cons] at h
    have h2 := ih (app j c [x]) (by rw [app_at]; simp; omega)
    rw [app_app] at h2
    refine .trans (.left ?_) h2
    have : prep p c (x :: z) = prep (prep p c z) c [x] := by rw [prep_prep]; rfl
    rw [this]
    exact .move _ _ _ _ _ _ ha (by omega)

theorem to_sends (c : Chan) (xs : List (String × Nat)) (r : List Act) (p i : Net) (t : Side) :
    To cap (⟨sends c xs ++ r, p, i⟩, t) (⟨r, app p c (bytes xs), i⟩, t) := by
  induction xs generalizing p with
  | nil => simp only [bytes, List.flatMap_nil, app_nil]; exact .refl _
  | cons z zs ih =>
    have h := ih (app p c (List.replicate z.2 z.1))
    rw [app_app] at h
    exact .trans (.left (.send ..)) h

theorem to_recv (c : Chan) (l : String) (n : Nat) (r : List Act) (i : Net) (t : Side) :
    To cap (⟨.recv c l n :: r, none', prep i c (List.replicate n l)⟩, t) (⟨r, none', i⟩, t) := by
  induction n with
  | zero => rw [List.replicate_zero, prep_nil]; exact .left (.done _ _ _ _ _ _ rfl)
  | succ n ih =>
    refine .trans (.left ?_) ih
    have : prep i c (List.replicate (n + 1) l) = prep (prep i c (List.replicate n l)) c [l] := by rw [prep_prep]; rfl
    rw [this]
    exact .take _ _ _ _ _ _ _ rfl

theorem to_recvs (c : Chan) (xs : List (String × Nat)) (r : List Act) (i : Net) (t : Side) :
    To cap (⟨recvs c xs ++ r, none', prep i c (bytes xs)⟩, t) (⟨r, none', i⟩, t) := by
  induction xs with
  | nil => simp only [bytes, List.flatMap_nil, prep_nil]; exact .refl _
  | cons z zs ih =>
    refine .trans ?_ ih
    have := to_recv (cap := cap) c z.1 z.2 (recvs c zs ++ r) (prep i c (bytes zs)) t
    rw [prep_prep] at this
    exact this

/-! ### Pieces of the two parties -/

/-- Between two pieces of code: one party may have bytes in the buffer of `io` that the other still has to read. -/
inductive Bd (k k' : List Act) : Side × Side → Prop
  | left (x : List String) (r : List Act) (h : Owes r x) : Bd k k' (⟨k, prep none' .io x, none'⟩, ⟨r ++ k', none', none'⟩)
  | right (x : List String) (r : List Act) (h : Owes r x) : Bd k k' (⟨r ++ k, none', none'⟩, ⟨k', prep none' .io x, none'⟩)

theorem Bd.swap {k k' : List Act} {s t : Side} (h : Bd k k' (s, t)) : Bd k' k (t, s) := by
  cases h with
  | left x r h => exact .right x r h
  | right x r h => exact .left x r h

theorem Bd.clean (k k' : List Act) : Bd k k' (⟨k, none', none'⟩, ⟨k', none', none'⟩) := by
  have := Bd.left (k := k) (k' := k') [] [] .nil
  rw [prep_nil] at this
  exact this

def Flow (cap : Nat) (a b : List Act) : Prop :=
  ∀ k k' p, Bd (a ++ k) (b ++ k') p → ∃ q, Bd k k' q ∧ To cap p q

theorem Flow.nil : Flow cap [] [] := fun _ _ p h => ⟨p, h, .refl p⟩

theorem Flow.append {a b c d : List Act} (h : Flow cap a b) (g : Flow cap c d) : Flow cap (a ++ c) (b ++ d) := by
  intro k k' p hp
  rw [List.append_assoc, List.append_assoc] at hp
  obtain ⟨q, hq, h1⟩ := h _ _ p hp
  obtain ⟨r, hr, h2⟩ := g _ _ q hq
  exact ⟨r, hr, h1.trans h2⟩

theorem Flow.cons {x y : Act} {c d : List Act} (h : Flow cap [x] [y]) (g : Flow cap c d) : Flow cap (x :: c) (y :: d) := h.append g

theorem Flow.symm {a b : List Act} (h : Flow cap a b) : Flow cap b a := by
  rintro k k' ⟨s, t⟩ hp
  obtain ⟨⟨s', t'⟩, hq, h1⟩ := h _ _ _ hp.swap
  exact ⟨(t', s'), hq.swap, h1.swap⟩

/-- Where the second party is about to flush, it owes nothing more. -/
theorem settle (hc : 0 < cap) {a b : List Act} (hb : Pushes b .io) {p : Side × Side} (h : Bd a b p) :
    ∃ x r, Owes r x ∧ To cap p (⟨a, prep none' .io x, none'⟩, ⟨r ++ b, none', none'⟩) := by
  cases h with
  | left x r h => exact ⟨x, r, h, .refl _⟩
  | right x r h =>
    refine ⟨[], [], .nil, ?_⟩
    rw [prep_nil]
    exact (drain hc h hb none' none' none' rfl).swap

/-- Where both are about to flush, nothing is owed. -/
theorem settle_both (hc : 0 < cap) {a b : List Act} (ha : Pushes a .io) (hb : Pushes b .io) {p : Side × Side} (h : Bd a b p) :
    To cap p (⟨a, none', none'⟩, ⟨b, none', none'⟩) := by
  obtain ⟨x, r, hr, h1⟩ := settle hc hb h
  exact h1.trans (drain hc hr ha none' none' none' rfl)

theorem meet_end (hc : 0 < cap) (m : Meet) {k k' : List Act} {p : Side × Side} (h : Bd (.meet m :: k) (.meet m :: k') p) :
    To cap p (⟨k, none', none'⟩, ⟨k', none', none'⟩) :=
  (settle_both hc (.meet ..) (.meet ..) h).trans (.one (.meet rfl rfl rfl rfl))

theorem Flow.meet (hc : 0 < cap) (m : Meet) : Flow cap [.meet m] [.meet m] :=
  fun _ _ _ h => ⟨_, .clean _ _, meet_end hc m h⟩

theorem Flow.flush (hc : 0 < cap) : Flow cap [.flush .io] [] := by
  intro k k' p h
  cases h with
  | left x r h =>
    exact ⟨_, .clean _ _, (drain hc h (.flush ..) none' none' none' rfl).trans (.left (.flush _ _ _ _ _ rfl))⟩
  | right x r h =>
    refine ⟨_, .right x (r ++ [.flush .io]) (by simpa using h.append (.flush .io .nil)), ?_⟩
    rw [List.append_assoc]
    exact .refl _

theorem Flow.msgs (hc : 0 < cap) {xs ys : List (String × Nat)} (h : bytes xs = bytes ys) (he : ys = [] → xs = []) :
    Flow cap (sends .io xs) (recvs .io ys) := by
  by_cases hy : ys = []
  · rw [he hy, hy]; exact .nil
  intro k k' p hp
  obtain ⟨y, ys', rfl⟩ := List.exists_cons_of_ne_nil hy
  obtain ⟨x, r, hr, h1⟩ := settle hc (b := recvs .io (y :: ys') ++ k') (.recv ..) hp
  refine ⟨_, .left (x ++ bytes xs) (r ++ recvs .io (y :: ys')) (hr.append (h ▸ .recvs _)), h1.trans ?_⟩
  have h2 := to_sends (cap := cap) .io xs k (prep none' .io x) none' ⟨r ++ (recvs .io (y :: ys') ++ k'), none', none'⟩
  rw [app_prep, none'_app, prep_prep] at h2
  rw [List.append_assoc]
  exact h2

theorem Flow.msg (hc : 0 < cap) (l : String) (n : Nat) : Flow cap [.send .io l n] [.recv .io l n] :=
  Flow.msgs hc (xs := [(l, n)]) (ys := [(l, n)]) rfl (by simp)

theorem Flow.same (hc : 0 < cap) (xs : List (String × Nat)) : Flow cap (sends .io xs) (recvs .io xs) := .msgs hc rfl id

/-- The end of a crossing: the first party holds its messages back in the buffer, the other's are there already. -/
theorem cross_end (hc : 0 < cap) (xs ys : List (String × Nat)) (k k' : List Act) :
    To cap (⟨.flush .io :: (recvs .opt ys ++ k), prep none' .io (bytes xs), prep none' .opt (bytes ys)⟩,
        ⟨recvs .io xs ++ k', none', none'⟩) (⟨k, none', none'⟩, ⟨k', none', none'⟩) :=
  (drain hc (.recvs xs) (.flush ..) none' _ none' rfl).trans
    ((To.left (.flush _ _ _ _ _ rfl)).trans (to_recvs .opt ys k none' _))

/-- Both parties send before they wait.  The second one writes to `io_opt`; its messages must fit into that connection. -/
theorem Flow.cross (hc : 0 < cap) (xs ys : List (String × Nat)) (hx : xs ≠ []) (hy : (bytes ys).length ≤ cap) :
    Flow cap (sends .io xs ++ .flush .io :: recvs .opt ys) (sends .opt ys ++ .flush .opt :: recvs .io xs) := by
  intro k k' p hp
  refine ⟨_, .clean k k', ?_⟩
  rw [List.append_assoc, List.append_assoc, List.cons_append, List.cons_append] at hp
  cases hp with
  | left x r h =>
    have h1 := to_sends (cap := cap) .io xs (.flush .io :: (recvs .opt ys ++ k)) (prep none' .io x) none'
      ⟨r ++ (sends .opt ys ++ .flush .opt :: (recvs .io xs ++ k')), none', none'⟩
    rw [app_prep, none'_app] at h1
    refine h1.trans ((drain hc h (.flush ..) _ none' none' rfl).trans ?_)
    have h2 := (to_sends (cap := cap) .opt ys (.flush .opt :: (recvs .io xs ++ k')) none' none'
      ⟨.flush .io :: (recvs .opt ys ++ k), prep none' .io (bytes xs), none'⟩).swap
    rw [none'_app] at h2
    have h3 := (fill (cap := cap) (.flush .opt (recvs .io xs ++ k')) (bytes ys) none' none' (prep none' .io (bytes xs)) none'
      (.flush .io :: (recvs .opt ys ++ k)) (by simpa [none'] using hy)).swap
    rw [none'_app] at h3
    exact h2.trans (h3.trans ((To.right (.flush _ _ _ _ _ rfl)).trans (cross_end hc xs ys k k')))
  | right x r h =>
    obtain ⟨z, zs, rfl⟩ := List.exists_cons_of_ne_nil hx
    have h1 := (to_sends (cap := cap) .opt ys (.flush .opt :: (recvs .io (z :: zs) ++ k')) (prep none' .io x) none'
      ⟨r ++ (sends .io (z :: zs) ++ .flush .io :: (recvs .opt ys ++ k)), none', none'⟩).swap
    have e : app (prep none' .io x) .opt (bytes ys) = prep (prep none' .io x) .opt (bytes ys) := app_of_empty rfl _
    rw [e] at h1
    have h2 := (fill (cap := cap) (.flush .opt (recvs .io (z :: zs) ++ k')) (bytes ys) (prep none' .io x) none' none' none'
      (r ++ (sends .io (z :: zs) ++ .flush .io :: (recvs .opt ys ++ k))) (by simpa [none'] using hy)).swap
    rw [none'_app] at h2
    refine h1.trans (h2.trans ((To.right (.flush _ _ _ _ _ rfl)).trans ?_))
    refine (drain hc h (a := recvs .io (z :: zs) ++ k') (.recv ..) none' none' (prep none' .opt (bytes ys)) rfl).swap.trans ?_
    have h3 := to_sends (cap := cap) .io (z :: zs) (.flush .io :: (recvs .opt ys ++ k)) none' (prep none' .opt (bytes ys))
      ⟨recvs .io (z :: zs) ++ k', none', none'⟩
    rw [none'_app] at h3
    exact h3.trans (cross_end hc (z :: zs) ys k k')

theorem Flow.loop (hc : 0 < cap) (l : String) (n k : Nat) : Flow cap (sendN .io l n k) (recvN .io l n k) := by
  rw [sendN_eq, recvN_eq]
  exact .same hc _

theorem Flow.chunks (hc : 0 < cap) (l : String) (n k : Nat) : Flow cap (sendN .io l n k) [.recv .io l (n * k)] := by
  rw [sendN_eq]
  refine Flow.msgs hc (ys := [(l, n * k)]) ?_ (by simp)
  rw [bytes_replicate]
  simp [bytes]

/-! ### The calls -/

theorem direct_flow (hc : 0 < cap) (batch top : Nat) (e : Ev) :
    Flow cap (genDirect batch top e).1 (evaDirect batch top e).1 := by
  cases e with
  | and => exact .msg hc _ _
  | feedA n => exact .nil
  | feedB n =>
    simp only [genDirect, evaDirect]
    split
    · exact .meet hc _
    · split
      · exact .cons (.meet hc _) (.symm (.msg hc _ _))
      · exact .symm (.msg hc _ _)
  | openP n k => exact .append (.loop hc _ _ _) (.cons (.symm (.msg hc _ _)) (.symm (.msg hc _ _)))
  | openA n k => exact .symm (.loop hc _ _ _)
  | openB n k => exact .loop hc _ _ _

theorem online_flow (hc : 0 < cap) (e : Ev) : Flow cap (genOnline e) (evaOnline e) := by
  cases e with
  | and => exact .nil
  | feedA n => exact .chunks hc _ _ _
  | feedB n => exact .meet hc _
  | openP n k => exact .cons (.symm (.msg hc _ _)) (.symm (.msg hc _ _))
  | openA n k => exact .symm (.loop hc _ _ _)
  | openB n k => exact .loop hc _ _ _

theorem offline_flow (hc : 0 < cap) (e : Ev) : Flow cap (genOffline e) (evaOffline e) := by
  cases e with
  | and => exact .msg hc _ _
  | feedA n => exact .nil
  | feedB n => exact .nil
  | openP n k => exact .loop hc _ _ _
  | openA n k => exact .nil
  | openB n k => exact .nil

theorem gates_flow (hc : 0 < cap) (m : Mode) (top : Nat) (es : List Ev) : Flow cap (gen m top es).1 (eva m top es).1 := by
  induction es generalizing top with
  | nil => exact .nil
  | cons e es ih =>
    cases m with
    | direct batch =>
      have h1 := direct_flow hc batch top e
      have h2 := (direct_pair batch top e).2
      have h3 := ih (evaDirect batch top e).2
      simp only [gen, eva, h2]
      exact h1.append h3
    | online => exact (online_flow hc e).append (ih top)

theorem offlines_flow (hc : 0 < cap) (es : List Ev) : Flow cap (es.flatMap genOffline) (es.flatMap evaOffline) := by
  induction es with
  | nil => exact .nil
  | cons e es ih => exact (offline_flow hc e).append ih

theorem ole_flow (hc : 0 < cap) (bits : Nat) (lens : List (List Nat)) : Flow cap (oleSend bits lens) (oleRecv bits lens) := by
  refine .cons (.meet hc _) ?_
  generalize lens = ls
  induction ls with
  | nil => exact .nil
  | cons l ls ih =>
    have h := (Flow.same hc (bns l)).append (.flush hc)
    rw [List.append_nil] at h
    exact h.append ih

theorem ole2k_flow (hc : 0 < cap) (n : Nat) : Flow cap (ole2kSend n) (ole2kRecv n) := by
  refine .cons (.meet hc _) ?_
  induction n with
  | zero => exact .nil
  | succ n ih => exact Flow.append (.chunks hc "ole" 128 16) ih

theorem conv_flow (hc : 0 < cap) (v : Conv) {a b : List Act} (h : Flow cap a b) : Flow cap (convSend v a) (convRecv v b) := by
  refine .append (.append (.append (.append (.append (.append (.cons (.msg hc _ _) h) (.same hc _)) (.symm (.loop hc _ _ _)))
    (.cons (.symm (.msg hc _ _)) (.symm (.msg hc _ _)))) (.symm (.same hc _))) (.same hc _)) (.symm (.same hc _))

end Verif.Lemmas.WireCap
