import Verif.Lemmas.WireFlow

/-! # Both parties send more than the connections hold (C95) -/

namespace Verif.Lemmas.WireCap

open Verif.Model.Wire Verif.Spec Verif.Lemmas.Wire

variable {cap : Nat}

/-- Part of what is in the buffer, until the connection is full. -/
theorem fill_up {c : Chan} {a : List Act} (ha : Pushes a c) (z : List String) (p i q j : Net) (b : List Act)
    (hj : j c = []) (h : cap < z.length) : ∃ j', (j' c).length = cap ∧ (∀ d, d ≠ c → j' d = j d)
      ∧ To cap (⟨a, prep p c z, i⟩, ⟨b, q, j⟩) (⟨a, prep p c (z.drop cap), i⟩, ⟨b, q, j'⟩) := by
  refine ⟨app j c (z.take cap), ?_, fun d hd => app_ne _ _ hd, ?_⟩
  · rw [app_at, hj]; simp; omega
  · have := fill (cap := cap) ha (z.take cap) (prep p c (z.drop cap)) i q j b (by rw [hj]; simp; omega)
    rw [prep_prep, List.take_append_drop] at this
    exact this

theorem full {t : Side} {c : Chan} {r : List Act} {z : List String} (p i : Net) (hz : z ≠ [])
    (hf : (t.inc c).length = cap) : actCap cap ⟨.flush c :: r, prep p c z, i⟩ t = none := by
  cases z with
  | nil => exact absurd rfl hz
  | cons x xs => simp [actCap, moveByte, prep_at, hf]

theorem drop_ne {z : List String} (h : cap < z.length) : z.drop cap ≠ [] := by
  intro e
  have := congrArg List.length e
  simp at this
  omega

/-- Neither party can go on, and the second one has not finished. -/
structure Jam (cap : Nat) (p : Side × Side) : Prop where
  left : actCap cap p.1 p.2 = none
  right : actCap cap p.2 p.1 = none
  more : ∃ c r, p.2.todo = .flush c :: r

theorem Jam.hangs {P : Side × Side → Prop} (hP : ∀ p, P p → p.1.todo = [] ∧ p.2.todo = []) {p q : Side × Side} (h : To cap p q)
    (j : Jam cap q) : CanHang (StepCap cap) P p := by
  obtain ⟨n, h⟩ := h
  obtain ⟨hl, hr, c, r, hm⟩ := j
  refine ⟨n, q, h, fun hg => ?_, fun u hu => ?_⟩
  · have := (hP _ hg).2; rw [hm] at this; simp at this
  · cases hu with
    | left g => rw [hl] at g; simp at g
    | right g => rw [hr] at g; simp at g
    | meet _ g => rw [hm] at g; simp at g

theorem Jam.hangs_swap {P : Side × Side → Prop} (hP : ∀ p, P p → p.1.todo = [] ∧ p.2.todo = []) {s t s' t' : Side}
    (h : To cap (s, t) (s', t')) (j : Jam cap (s', t')) : CanHang (StepCap cap) P (t, s) := by
  obtain ⟨n, h⟩ := h.swap
  obtain ⟨hl, hr, c, r, hm⟩ := j
  refine ⟨n, _, h, fun hg => ?_, fun u hu => ?_⟩
  · have := (hP _ hg).1; simp only at this hm; rw [hm] at this; simp at this
  · cases hu with
    | left g => rw [hr] at g; simp at g
    | right g => rw [hl] at g; simp at g
    | meet g => rw [hm] at g; simp at g

/-- A party that owes: it has nothing to read, or it gets to a statement that waits. -/
theorem Owes.run {r : List Act} {x : List String} (h : Owes r x) (k : List Act) (i : Net) (t : Side) :
    To cap (⟨r ++ k, none', i⟩, t) (⟨k, none', i⟩, t)
      ∨ ∃ l n r', To cap (⟨r ++ k, none', i⟩, t) (⟨.recv .io l (n + 1) :: r', none', i⟩, t) := by
  induction h with
  | nil => exact .inl (.refl _)
  | @recv l n r x _ ih =>
    cases n with
    | succ n => exact .inr ⟨l, n, r ++ k, .refl _⟩
    | zero =>
      have h1 : To cap (⟨.recv .io l 0 :: (r ++ k), none', i⟩, t) (⟨r ++ k, none', i⟩, t) := .left (.done _ _ _ _ _ _ rfl)
      rcases ih with h | ⟨l', n', r', h⟩
      · exact .inl (h1.trans h)
      · exact .inr ⟨l', n', r', h1.trans h⟩
  | @flush c r x _ ih =>
    have h1 : To cap (⟨.flush c :: (r ++ k), none', i⟩, t) (⟨r ++ k, none', i⟩, t) := .left (.flush _ _ _ _ _ rfl)
    rcases ih with h | ⟨l', n', r', h⟩
    · exact .inl (h1.trans h)
    · exact .inr ⟨l', n', r', h1.trans h⟩

/-- Both buffers are filled and neither fits: `q` is what else the second party has in its buffers. -/
theorem jam_flush {xs ys : List String} (hx : cap < xs.length) (hy : cap < ys.length) (ka kb : List Act) (q i : Net)
    (hi : i .opt = []) :
    ∃ w, To cap (⟨.flush .io :: ka, prep none' .io xs, i⟩, ⟨.flush .opt :: kb, prep q .opt ys, none'⟩) w ∧ Jam cap w := by
  obtain ⟨j, hj, -, h3⟩ := fill_up (.flush .io ka) xs none' i (prep q .opt ys) none' (.flush .opt :: kb) rfl hx
  obtain ⟨i', hi', -, h4⟩ := fill_up (.flush .opt kb) ys q j (prep none' .io (xs.drop cap)) i (.flush .io :: ka) hi hy
  exact ⟨_, h3.trans h4.swap, full _ _ (drop_ne hx) hj, full _ _ (drop_ne hy) hi', _, _, rfl⟩

/-- A crossing for which the connections are too small: whatever the state before it, it can hang. -/
theorem jam (hc : 0 < cap) (xs ys : List (String × Nat)) (hx : cap < (bytes xs).length) (hy : cap < (bytes ys).length)
    (ka kb : List Act) {p : Side × Side} (hp : Bd (sends .io xs ++ .flush .io :: ka) (sends .opt ys ++ .flush .opt :: kb) p) :
    ∃ w, To cap p w ∧ Jam cap w := by
  cases hp with
  | left x r h =>
    have h1 := to_sends (cap := cap) .io xs (.flush .io :: ka) (prep none' .io x) none'
      ⟨r ++ (sends .opt ys ++ .flush .opt :: kb), none', none'⟩
    rw [app_prep, none'_app] at h1
    have h2 := drain hc h (k := sends .opt ys ++ .flush .opt :: kb) (.flush .io ka) (prep none' .io (bytes xs)) none' none' rfl
    have h3 := (to_sends (cap := cap) .opt ys (.flush .opt :: kb) none' none'
      ⟨.flush .io :: ka, prep none' .io (bytes xs), none'⟩).swap
    rw [none'_app] at h3
    obtain ⟨w, hw, j⟩ := jam_flush hx hy ka kb none' none' rfl
    exact ⟨w, h1.trans (h2.trans (h3.trans hw)), j⟩
  | right x r h =>
    have h1 := (to_sends (cap := cap) .opt ys (.flush .opt :: kb) (prep none' .io x) none'
      ⟨r ++ (sends .io xs ++ .flush .io :: ka), none', none'⟩).swap
    have e : app (prep none' .io x) .opt (bytes ys) = prep (prep none' .io x) .opt (bytes ys) := app_of_empty rfl _
    rw [e] at h1
    rcases h.run (cap := cap) (sends .io xs ++ .flush .io :: ka) none'
      ⟨.flush .opt :: kb, prep (prep none' .io x) .opt (bytes ys), none'⟩ with h2 | ⟨l, n, r', h2⟩
    · have h3 := to_sends (cap := cap) .io xs (.flush .io :: ka) none' none'
        ⟨.flush .opt :: kb, prep (prep none' .io x) .opt (bytes ys), none'⟩
      rw [none'_app] at h3
      obtain ⟨w, hw, j⟩ := jam_flush hx hy ka kb (prep none' .io x) none' rfl
      exact ⟨w, h1.trans (h2.trans (h3.trans hw)), j⟩
    · obtain ⟨i, hi, hi', h3⟩ := fill_up (.flush .opt kb) (bytes ys) (prep none' .io x) none' none' none'
        (.recv .io l (n + 1) :: r') rfl hy
      refine ⟨_, h1.trans (h2.trans h3.swap), ?_, full _ _ (drop_ne hy) hi, _, _, rfl⟩
      have : i .io = [] := hi' .io (by decide)
      simp [actCap, this, none']

end Verif.Lemmas.WireCap
