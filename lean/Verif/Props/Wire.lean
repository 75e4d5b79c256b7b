import Verif.Lemmas.WireCalls

/-!
# C93: no party waits for ever

The two parties run the same calls with the same public parameters, each as a process of its own with buffered connections.  In
whatever order the processes are scheduled, a session comes to its end after a bounded number of steps, and then everything that
was sent has been received.
-/

namespace Verif.Props.Wire

open Verif.Model.Wire Verif.Spec Verif.Lemmas.Wire

/-- Both parties did all they had to do, nothing is left in a buffer or on the way. -/
abbrev Good (p : Side × Side) : Prop := p.1.Done ∧ p.2.Done

/-- Every session: any backend, any position in its buffer of correlations, any calls with any operations and lengths. -/
theorem C93_session (m : Mode) (top : Nat) (cs : List Call) :
    AlwaysEnds (Step true) Good (start (aliceAll m top cs), start (bobAll m top cs)) := by
  obtain ⟨h1, h2, h3⟩ := session_pair m top cs
  exact always_ends h1 (h2 false) (h3 false)

/-- In particular no run of a session stops before its end. -/
theorem C93_never_stuck (m : Mode) (top : Nat) (cs : List Call) :
    ¬ CanHang (Step true) Good (start (aliceAll m top cs), start (bobAll m top cs)) := by
  rintro ⟨n, t, h, hg, hs⟩
  rcases (C93_session m top cs).2 n t h with h' | ⟨u, hu⟩
  · exact hg h'
  · exact hs u hu

/-- A session that ends with all done exists: the statement above is not about runs that never begin. -/
theorem C93_ends_well (m : Mode) (top : Nat) (cs : List Call) :
    ∃ n t, Steps (Step true) n (start (aliceAll m top cs), start (bobAll m top cs)) t ∧ Good t := by
  obtain ⟨⟨N, hN⟩, h⟩ := C93_session m top cs
  by_contra hc
  have ext : ∀ k, ∃ t, Steps (Step true) k (start (aliceAll m top cs), start (bobAll m top cs)) t := by
    intro k
    induction k with
    | zero => exact ⟨_, .zero _⟩
    | succ k ih =>
      obtain ⟨t, ht⟩ := ih
      rcases h k t ht with hg | ⟨u, hu⟩
      · exact absurd ⟨k, t, ht, hg⟩ hc
      · exact ⟨u, Verif.Lemmas.Wire.Steps.trans ht (.succ hu (.zero u))⟩
  obtain ⟨t, ht⟩ := ext (N + 1)
  exact absurd (hN _ t ht) (by omega)

/-- The flow of the test program (`test/protocol.cpp:66-143`), with arbitrary circuits and lengths of numbers, is such a session. -/
example (es : Fin 8 → List Ev) (lens : List (List Nat)) (xs ys : Fin 3 → List Nat) (n q : Nat) :
    AlwaysEnds (Step true) Good
      (start (aliceAll (.direct 100000) 0 [.dh, .pmsOffline 256 lens, .pmsOnline (xs 0) (ys 0) (xs 1) (ys 1) (xs 2) (ys 2),
        .gates (es 0), .gates (es 1), .aead (es 2), .aead (es 3), .encrypt (es 4) [] false 12 20, .decrypt (es 5) [] false 12 20,
        .encrypt (es 6) (es 7) true q 20, .revealPms n, .zk 1, .zk 2]),
       start (bobAll (.direct 100000) 0 [.dh, .pmsOffline 256 lens, .pmsOnline (xs 0) (ys 0) (xs 1) (ys 1) (xs 2) (ys 2),
        .gates (es 0), .gates (es 1), .aead (es 2), .aead (es 3), .encrypt (es 4) [] false 12 20, .decrypt (es 5) [] false 12 20,
        .encrypt (es 6) (es 7) true q 20, .revealPms n, .zk 1, .zk 2])) := C93_session _ _ _

/-- A concrete session and what its parties do. -/
example : aliceAll (.direct 4) 0 [.dh, .gates [.feedA 2, .feedB 2, .and, .openP 2 1]] =
    [.recv .io "Ta" 65, .recv .io "bits" 2, .send .io "table" 32, .send .io "lsb" 1, .recv .io "opened" 2, .recv .io "hash" 32,
      .meet (.zk 0)] := by decide

/-! ### What the result rests on -/

theorem run_sends (auto : Bool) (xs : List (String × Nat)) (r : List Act) (p i : Chan → List String) (t : Side) :
    ∃ n, Steps (Step auto) n (⟨sends .io xs ++ r, p, i⟩, t) (⟨r, app p .io (bytes xs), i⟩, t) := by
  induction xs generalizing p with
  | nil => exact ⟨0, by simp only [bytes, List.flatMap_nil, app_nil]; exact .zero _⟩
  | cons z zs ih =>
    obtain ⟨n, h⟩ := ih (app p .io (List.replicate z.2 z.1))
    rw [app_app] at h
    exact ⟨n + 1, .succ (.left rfl) h⟩

theorem tagBlocks_pos (len aad : Nat) : ∃ k, tagBlocks len aad = k + 1 := by
  refine ⟨tagBlocks len aad - 1, ?_⟩
  have : 1 ≤ tagBlocks len aad := by
    simp only [tagBlocks]
    omega
  omega

theorem ole_sends (n : Nat) : (List.replicate n (sendN .io "ole" 128 16)).flatten =
    sends .io (List.replicate (n * 128) ("ole", 16)) := by
  induction n with
  | zero => rfl
  | succ n ih =>
    rw [List.replicate_succ, List.flatten_cons, ih, sendN_eq, Nat.succ_mul, Nat.add_comm (n * 128),
      ← List.replicate_append_replicate]
    simp [sends]

theorem starve {s t : Side} {c : Chan} {l : String} {n : Nat} {r : List Act} (h : s.todo = .recv c l n :: r) (hn : 0 < n)
    (hi : s.inc c = []) : act false s t = none := by
  obtain ⟨n, rfl⟩ : ∃ k, n = k + 1 := ⟨n - 1, by omega⟩
  simp [act, h, hi, List.replicate_succ]

/-- `AEAD::encrypt` needs connections that flush before they receive: with others, ALICE waits for the share of the tag while the
messages of her oblivious evaluation are still in the buffer, and BOB waits for those.  For every length of message and data. -/
theorem C93_needs_flush_before_receive (m : Mode) (top len aad : Nat) :
    CanHang (Step false) Good (start (aliceAll m top [.encrypt [] [] false len aad]),
      start (bobAll m top [.encrypt [] [] false len aad])) := by
  obtain ⟨k, hk⟩ := tagBlocks_pos len aad
  let ra : List Act := [.recv .io "tag B" 16, .meet (.zk 0)]
  let rb : List Act := List.replicate k (.recv .io "ole" (128 * 16)) ++
    [.send .io "tag B" 16, .flush .io, .recv .opt "tag A" 16, .meet (.zk 0)]
  have ea : aliceAll m top [.encrypt [] [] false len aad] = .meet (.zk 128) :: .meet (.rot ((k + 1) * 128)) ::
      (sends .io (List.replicate ((k + 1) * 128) ("ole", 16)) ++ .send .opt "tag A" 16 :: .flush .opt :: ra) := by
    simp [aliceAll, alice, gen, hk, ole2kSend, ole_sends, ra]
  have eb : bobAll m top [.encrypt [] [] false len aad] = .meet (.zk 128) :: .meet (.rot ((k + 1) * 128)) ::
      .recv .io "ole" (128 * 16) :: rb := by
    simp [bobAll, bob, eva, hk, ole2kRecv, rb, List.replicate_succ]
  rw [ea, eb]
  obtain ⟨n, hn⟩ := run_sends false (List.replicate ((k + 1) * 128) ("ole", 16)) (.send .opt "tag A" 16 :: .flush .opt :: ra)
    (fun _ => []) (fun _ => []) (start (.recv .io "ole" (128 * 16) :: rb))
  refine ⟨_, _, .succ (.meet rfl rfl rfl rfl) (.succ (.meet rfl rfl rfl rfl)
    (Verif.Lemmas.Wire.Steps.trans hn (.succ (.left rfl) (.succ (.left rfl) (.zero _))))), ?_, ?_⟩
  · rintro ⟨⟨h, _⟩, _⟩
    exact absurd h (by simp [ra])
  · intro u hu
    cases hu with
    | left h => exact absurd (h.symm.trans (starve rfl (by decide) rfl)) (by simp)
    | right h => exact absurd (h.symm.trans (starve rfl (by decide) rfl)) (by simp)
    | meet hs ht ps pt => simp [ra] at hs

/-- A first message of another length is not noticed as such: for `t = 0`, which `BN_rand_range` may return
(`protocol/handshake.h:106`), the point is encoded in one byte, and ALICE waits for 64 more. -/
theorem C93_short_point (m : Mode) (top bits : Nat) (lens : List (List Nat)) (cs : List Call) :
    CanHang (Step true) Good (start (aliceAll m top (.dh :: .pmsOffline bits lens :: cs)),
      start (.send .io "Ta" 1 :: bobAll m top (.pmsOffline bits lens :: cs))) := by
  refine ⟨_, _, .succ (.right rfl) (.succ (.right rfl) (.zero _)), ?_, ?_⟩
  · rintro ⟨⟨h, _⟩, _⟩
    simp [aliceAll, alice, start] at h
  · intro u hu
    cases hu with
    | left h => simp [act, aliceAll, alice, start, upd, List.replicate_succ] at h
    | right h => simp [act, bobAll, bob, oleRecv, upd] at h
    | meet hs ht ps pt => simp [aliceAll, alice, start] at hs

end Verif.Props.Wire
