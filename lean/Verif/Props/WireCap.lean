import Verif.Lemmas.WireJam
import Verif.Props.Wire

/-!
# C95: connections that hold only so many bytes

As C93, over connections in which only `cap` bytes fit that were sent and not yet read; a party that sends more waits.  Then two
parties that both send before they read can wait for each other for ever.  The code does this on purpose in `E2F::open` and at the end
of `encrypt` and `decrypt`; what is needed is room for the messages on `io_opt`, at most 72 bytes.  All the other messages, tables of
circuits of any size among them, pass through a connection that holds one byte.
-/

namespace Verif.Props.WireCap

open Verif.Model.Wire Verif.Spec Verif.Lemmas.Wire Verif.Lemmas.WireCap Verif.Props.Wire

/-- Bytes of several numbers with their lengths. -/
def size (ns : List Nat) : Nat := (ns.map (4 + ·)).sum

/-- Room for the messages on `io_opt`.  BOB's numbers in the three openings of `E2F`, of which ALICE sends at least one each; the
shares of the tag; BOB's commitment and its opening. -/
def Room (cap : Nat) : Call → Prop
  | .pmsOnline xs1 ys1 xs2 ys2 xs3 ys3 =>
    (xs1 ≠ [] ∧ xs2 ≠ [] ∧ xs3 ≠ []) ∧ size ys1 ≤ cap ∧ size ys2 ≤ cap ∧ size ys3 ≤ cap
  | .encrypt .. => 16 ≤ cap
  | .decrypt .. => 32 ≤ cap
  | _ => True

theorem length_bytes (ns : List Nat) : (bytes (bns ns)).length = size ns := by
  induction ns with
  | nil => rfl
  | cons n ns ih =>
    have : bytes (bns (n :: ns)) = List.replicate 4 "length" ++ (List.replicate n "number" ++ bytes (bns ns)) := by
      simp [bytes, bns, bn]
    rw [this]
    simp [ih, size]
    omega

theorem open_flow {cap : Nat} (hc : 0 < cap) {xs ys : List Nat} (hx : xs ≠ []) (hy : size ys ≤ cap) :
    Flow cap (openAlice xs ys) (openBob xs ys) := by
  refine .cross hc _ _ ?_ (by rw [length_bytes]; exact hy)
  cases xs with
  | nil => exact absurd rfl hx
  | cons x xs => simp [bns, bn]

theorem call_flow {cap : Nat} (hc : 0 < cap) (m : Mode) (top : Nat) (c : Call) (hr : Room cap c) :
    Flow cap (alice m top c).1 (bob m top c).1 := by
  cases c with
  | gates es => exact gates_flow hc m top es
  | offline es => exact offlines_flow hc es
  | zk n => exact .meet hc _
  | dh => exact .symm (.msg hc _ _)
  | pmsOffline bits lens => exact ole_flow hc _ _
  | pmsOnline xs1 ys1 xs2 ys2 xs3 ys3 =>
    obtain ⟨⟨h1, h2, h3⟩, h4, h5, h6⟩ := hr
    exact .append (.append (open_flow hc h1 h4) (open_flow hc h2 h5)) (open_flow hc h3 h6)
  | aead es => exact .append (.append (gates_flow hc m top es) (ole2k_flow hc 1)) (.cons (.msg hc _ _) (.meet hc _))
  | encrypt es1 es2 sec len aad =>
    have h1 := gates_flow hc m top es1
    have h2 := (gates_pair m top es1).2
    have h3 := gates_flow hc m (eva m top es1).2 es2
    simp only [alice, bob, h2]
    refine .append (.append (.append (.append h1 (.cons (.meet hc _) h3)) ?_) (ole2k_flow hc _)) ?_
    · cases sec
      · exact .nil
      · exact .cons (.meet hc _) (.cons (.msg hc _ _) (.symm (.msg hc _ _)))
    · exact (Flow.cross hc [("tag B", 16)] [("tag A", 16)] (by simp) (by simp only [Room] at hr; simpa [bytes] using hr)).symm
  | decrypt es1 es2 sec len aad =>
    have h1 := gates_flow hc m top es1
    have h2 := (gates_pair m top es1).2
    have h3 := gates_flow hc m (eva m top es1).2 es2
    simp only [alice, bob, h2]
    refine .append (.append (.append (.append (.append h1 (.cons (.meet hc _) h3)) ?_) (ole2k_flow hc _)) ?_) ?_
    · cases sec
      · exact .nil
      · exact .cons (.meet hc _) (.symm (.msg hc _ _))
    · exact Flow.cross hc [("com A", 32)] [("com B", 32)] (by simp) (by simp only [Room] at hr; simpa [bytes] using hr)
    · exact Flow.cross hc [("tag A", 16), ("rnd A", 16)] [("tag B", 16), ("rnd B", 16)] (by simp) (by simp only [Room] at hr; simpa [bytes] using hr)
  | revealPms n => exact .symm (.same hc _)
  | convert aliceOle v =>
    cases aliceOle
    · exact .symm (conv_flow hc v (ole_flow hc _ _))
    · exact .symm (conv_flow hc v (.symm (ole_flow hc _ _)))

theorem session_run {cap : Nat} (hc : 0 < cap) (m : Mode) (top : Nat) (cs : List Call) (hr : ∀ c ∈ cs, Room cap c) (p : Side × Side)
    (hp : Bd (aliceAll m top cs) (bobAll m top cs) p) : To cap p (⟨[], none', none'⟩, ⟨[], none', none'⟩) := by
  induction cs generalizing top p with
  | nil => exact meet_end hc (.zk 0) hp
  | cons c cs ih =>
    have h1 := call_flow hc m top c (hr c (by simp))
    have h2 := (call_pair m top c).2
    simp only [aliceAll, bobAll, h2] at hp
    obtain ⟨q, hq, h3⟩ := h1 _ _ p hp
    exact h3.trans (ih _ (fun c hc => hr c (List.mem_cons_of_mem _ hc)) q hq)

/-- Every session over connections that hold `cap` bytes, one at least and as many as its calls need: however the processes are
scheduled it comes to its end after a bounded number of steps, and then everything that was sent has been received. -/
theorem C95_session (cap : Nat) (hc : 0 < cap) (m : Mode) (top : Nat) (cs : List Call) (hr : ∀ c ∈ cs, Room cap c) :
    AlwaysEnds (StepCap cap) Good (start (aliceAll m top cs), start (bobAll m top cs)) := by
  obtain ⟨n, h⟩ := session_run hc m top cs hr _ (.clean _ _)
  exact always_of_one (diamond cap) (fun s hs u => done_stuck hs.1 hs.2 u) h
    ⟨⟨rfl, fun _ => rfl, fun _ => rfl⟩, ⟨rfl, fun _ => rfl, fun _ => rfl⟩⟩

/-- The calls of the code: `E2F` opens two numbers, then one, then one (`protocol/e2f.h:151-175`), of at most `len` bytes. -/
def OfCode (len : Nat) : Call → Prop
  | .pmsOnline xs1 ys1 xs2 ys2 xs3 ys3 =>
    (xs1.length = 2 ∧ xs2.length = 1 ∧ xs3.length = 1) ∧ (ys1.length = 2 ∧ ys2.length = 1 ∧ ys3.length = 1)
      ∧ ∀ n ∈ ys1 ++ ys2 ++ ys3, n ≤ len
  | _ => True

theorem size_le {ns : List Nat} {len : Nat} (h : ∀ n ∈ ns, n ≤ len) : size ns ≤ ns.length * (4 + len) := by
  induction ns with
  | nil => simp [size]
  | cons n ns ih =>
    have h1 := ih fun n hn => h n (List.mem_cons_of_mem _ hn)
    have h2 := h n (by simp)
    simp only [size, List.map_cons, List.sum_cons, List.length_cons, Nat.succ_mul] at h1 ⊢
    omega

/-- For a field of 256 bits, 72 bytes are enough for any session of the code: two numbers of 32 bytes with their lengths. -/
theorem C95_code (cap : Nat) (hc : 72 ≤ cap) (m : Mode) (top : Nat) (cs : List Call) (h : ∀ c ∈ cs, OfCode 32 c) :
    AlwaysEnds (StepCap cap) Good (start (aliceAll m top cs), start (bobAll m top cs)) := by
  refine C95_session cap (by omega) m top cs fun c hcs => ?_
  have hcc := h c hcs
  cases c with
  | pmsOnline xs1 ys1 xs2 ys2 xs3 ys3 =>
    obtain ⟨⟨a1, a2, a3⟩, ⟨b1, b2, b3⟩, hn⟩ := hcc
    have s1 := size_le (ns := ys1) (len := 32) fun n hm => hn n (by simp [hm])
    have s2 := size_le (ns := ys2) (len := 32) fun n hm => hn n (by simp [hm])
    have s3 := size_le (ns := ys3) (len := 32) fun n hm => hn n (by simp [hm])
    rw [b1] at s1
    rw [b2] at s2
    rw [b3] at s3
    refine ⟨⟨?_, ?_, ?_⟩, by omega, by omega, by omega⟩ <;> (rintro rfl; simp at a1 a2 a3)
  | encrypt => exact Nat.le_trans (by decide) hc
  | decrypt => exact Nat.le_trans (by decide) hc
  | _ => trivial

/-- A session of the code with circuits of any size. -/
example (es : Fin 5 → List Ev) (lens : List (List Nat)) :
    AlwaysEnds (StepCap 72) Good
      (start (aliceAll (.direct 100000) 0 [.dh, .pmsOffline 256 lens, .pmsOnline [32, 32] [32, 31] [32] [30] [32] [32],
        .gates (es 0), .aead (es 1), .encrypt (es 2) [] false 12 20, .decrypt (es 3) (es 4) true 16384 13, .revealPms 32, .zk 1]),
       start (bobAll (.direct 100000) 0 [.dh, .pmsOffline 256 lens, .pmsOnline [32, 32] [32, 31] [32] [30] [32] [32],
        .gates (es 0), .aead (es 1), .encrypt (es 2) [] false 12 20, .decrypt (es 3) (es 4) true 16384 13, .revealPms 32, .zk 1])) :=
  C95_code 72 (by decide) _ _ _ (by simp [OfCode]; omega)

/-- The circuits, the oblivious evaluations and the conversion of the commitments need one byte. -/
example (es : List Ev) (bits : Nat) (lens : List (List Nat)) (v : Conv) (o : Bool) :
    AlwaysEnds (StepCap 1) Good
      (start (aliceAll .online 0 [.dh, .offline es, .pmsOffline bits lens, .gates es, .aead es, .convert o v]),
       start (bobAll .online 0 [.dh, .offline es, .pmsOffline bits lens, .gates es, .aead es, .convert o v])) :=
  C95_session 1 (by decide) _ _ _ (by simp [Room])

/-! ### What the room is needed for -/

theorem cant {cap : Nat} {s t : Side} {r : List Act} {c : Chan} (hs : actCap cap s t = none) (ht : actCap cap t s = none)
    (h : s.todo = .flush c :: r) : ¬ Good (s, t) ∧ ∀ u, ¬ StepCap cap (s, t) u := by
  refine ⟨fun hg => ?_, fun u hu => ?_⟩
  · have := hg.1.1
    rw [h] at this
    simp at this
  · cases hu with
    | left g => rw [hs] at g; simp at g
    | right g => rw [ht] at g; simp at g
    | meet g => rw [h] at g; simp at g

/-- If neither party's numbers fit, an opening of `E2F` hangs: both wait for the other to read. -/
theorem C95_opening_too_large (cap : Nat) (m : Mode) (top : Nat) (xs1 ys1 xs2 ys2 xs3 ys3 : List Nat) (cs : List Call)
    (hx : cap < size xs1) (hy : cap < size ys1) :
    CanHang (StepCap cap) Good (start (aliceAll m top (.pmsOnline xs1 ys1 xs2 ys2 xs3 ys3 :: cs)),
      start (bobAll m top (.pmsOnline xs1 ys1 xs2 ys2 xs3 ys3 :: cs))) := by
  rw [← length_bytes] at hx hy
  obtain ⟨ka, ea⟩ : ∃ k, aliceAll m top (.pmsOnline xs1 ys1 xs2 ys2 xs3 ys3 :: cs)
      = sends .io (bns xs1) ++ .flush .io :: k :=
    ⟨recvs .opt (bns ys1) ++ (openAlice xs2 ys2 ++ openAlice xs3 ys3 ++ aliceAll m top cs), by simp [aliceAll, alice, openAlice]⟩
  obtain ⟨kb, eb⟩ : ∃ k, bobAll m top (.pmsOnline xs1 ys1 xs2 ys2 xs3 ys3 :: cs)
      = sends .opt (bns ys1) ++ .flush .opt :: k :=
    ⟨recvs .io (bns xs1) ++ (openBob xs2 ys2 ++ openBob xs3 ys3 ++ bobAll m top cs), by simp [bobAll, bob, openBob]⟩
  rw [ea, eb]
  have h1 := to_sends (cap := cap) .io (bns xs1) (.flush .io :: ka) none' none' (start (sends .opt (bns ys1) ++ .flush .opt :: kb))
  rw [none'_app] at h1
  have h2 := (to_sends (cap := cap) .opt (bns ys1) (.flush .opt :: kb) none' none'
    ⟨.flush .io :: ka, prep none' .io (bytes (bns xs1)), none'⟩).swap
  rw [none'_app] at h2
  obtain ⟨j, hj, hj', h3⟩ := fill_up (.flush .io ka) (bytes (bns xs1)) none' none' (prep none' .opt (bytes (bns ys1))) none'
    (.flush .opt :: kb) rfl hx
  obtain ⟨i, hi, -, h4⟩ := fill_up (.flush .opt kb) (bytes (bns ys1)) none' j (prep none' .io ((bytes (bns xs1)).drop cap)) none'
    (.flush .io :: ka) rfl hy
  obtain ⟨n, hn⟩ := h1.trans (h2.trans (h3.trans h4.swap))
  obtain ⟨h5, h6⟩ := cant (cap := cap) (s := ⟨.flush .io :: ka, prep none' .io ((bytes (bns xs1)).drop cap), i⟩)
    (t := ⟨.flush .opt :: kb, prep none' .opt ((bytes (bns ys1)).drop cap), j⟩)
    (full _ _ (drop_ne hx) hj) (full _ _ (drop_ne hy) hi) rfl
  exact ⟨n, _, hn, h5, h6⟩

/-- It is BOB's numbers that have to fit: if bits that BOB has fed into a circuit are still in the buffer of `io`, the opening hangs
when they do not, whatever ALICE sends. -/
theorem C95_bobs_numbers (cap batch n : Nat) (hn : 0 < n) (hb : n ≤ batch) (xs1 ys1 xs2 ys2 xs3 ys3 : List Nat) (cs : List Call)
    (hy : cap < size ys1) :
    CanHang (StepCap cap) Good
      (start (aliceAll (.direct batch) 0 (.gates [.feedB n] :: .pmsOnline xs1 ys1 xs2 ys2 xs3 ys3 :: cs)),
       start (bobAll (.direct batch) 0 (.gates [.feedB n] :: .pmsOnline xs1 ys1 xs2 ys2 xs3 ys3 :: cs))) := by
  rw [← length_bytes] at hy
  obtain ⟨n, rfl⟩ : ∃ k, n = k + 1 := ⟨n - 1, by omega⟩
  have g1 : ¬ batch < n + 1 := by omega
  obtain ⟨ka, ea⟩ : ∃ k, aliceAll (.direct batch) 0 (.gates [.feedB (n + 1)] :: .pmsOnline xs1 ys1 xs2 ys2 xs3 ys3 :: cs)
      = .recv .io "bits" (n + 1) :: k :=
    ⟨_, by simp [aliceAll, alice, gen, genDirect, g1]; rfl⟩
  obtain ⟨kb, eb⟩ : ∃ k, bobAll (.direct batch) 0 (.gates [.feedB (n + 1)] :: .pmsOnline xs1 ys1 xs2 ys2 xs3 ys3 :: cs)
      = sends .io [("bits", n + 1)] ++ (sends .opt (bns ys1) ++ .flush .opt :: k) :=
    ⟨_, by simp [bobAll, bob, eva, evaDirect, g1, openBob, sends]; rfl⟩
  rw [ea, eb]
  have h1 := (to_sends (cap := cap) .io [("bits", n + 1)] (sends .opt (bns ys1) ++ .flush .opt :: kb) none' none'
    (start (.recv .io "bits" (n + 1) :: ka))).swap
  have h2 := (to_sends (cap := cap) .opt (bns ys1) (.flush .opt :: kb) (app none' .io (bytes [("bits", n + 1)])) none'
    (start (.recv .io "bits" (n + 1) :: ka))).swap
  have e : app (app none' .io (bytes [("bits", n + 1)])) .opt (bytes (bns ys1))
      = prep (app none' .io (bytes [("bits", n + 1)])) .opt (bytes (bns ys1)) := app_of_empty rfl _
  rw [e] at h2
  obtain ⟨i, hi, hi', h3⟩ := fill_up (.flush .opt kb) (bytes (bns ys1)) (app none' .io (bytes [("bits", n + 1)])) none' none' none'
    (.recv .io "bits" (n + 1) :: ka) rfl hy
  obtain ⟨k, hk⟩ := h1.trans (h2.trans h3.swap)
  have hA : actCap cap ⟨.recv .io "bits" (n + 1) :: ka, none', i⟩
      ⟨.flush .opt :: kb, prep (app none' .io (bytes [("bits", n + 1)])) .opt ((bytes (bns ys1)).drop cap), none'⟩ = none := by
    have : i .io = [] := hi' .io (by decide)
    simp [actCap, this, none']
  have hB := full (cap := cap) (t := ⟨.recv .io "bits" (n + 1) :: ka, none', i⟩) (r := kb) (app none' .io (bytes [("bits", n + 1)]))
    none' (drop_ne hy) hi
  refine ⟨k, _, hk, fun hg => by have := hg.1.1; simp at this, fun u hu => ?_⟩
  cases hu with
  | left g => rw [hA] at g; simp at g
  | right g => rw [hB] at g; simp at g
  | meet g => simp at g

/-- A connection of 71 bytes, and numbers of 32 bytes. -/
example := C95_bobs_numbers 71 100000 8 (by decide) (by decide) [32, 32] [32, 32] [32] [32] [32] [32] [] (by decide)

/-! ### The room is needed, whatever went before -/

/-- The calls before, to the place between two calls. -/
theorem run_prefix {cap : Nat} (hc : 0 < cap) (m : Mode) (top : Nat) (pre cs : List Call) (hr : ∀ c ∈ pre, Room cap c) (p : Side × Side)
    (hp : Bd (aliceAll m top (pre ++ cs)) (bobAll m top (pre ++ cs)) p) :
    ∃ top' q, Bd (aliceAll m top' cs) (bobAll m top' cs) q ∧ To cap p q := by
  induction pre generalizing top p with
  | nil => exact ⟨top, p, hp, .refl p⟩
  | cons c pre ih =>
    have h1 := call_flow hc m top c (hr c (by simp))
    have h2 := (call_pair m top c).2
    simp only [List.cons_append, aliceAll, bobAll, h2] at hp
    obtain ⟨q, hq, h3⟩ := h1 _ _ p hp
    obtain ⟨top', q', hq', h4⟩ := ih _ (fun c hc => hr c (List.mem_cons_of_mem _ hc)) q hq
    exact ⟨top', q', hq', h3.trans h4⟩

theorem good_todo (p : Side × Side) (h : Good p) : p.1.todo = [] ∧ p.2.todo = [] := ⟨h.1.1, h.2.1⟩

/-- `decrypt` needs 32 bytes on `io_opt` and `io`: over smaller connections it can hang at the commitments to the shares of the tag,
after any calls, with any circuits and any record. -/
theorem C95_decrypt_too_small (cap : Nat) (hc : 0 < cap) (h32 : cap < 32) (m : Mode) (top : Nat) (pre cs : List Call)
    (hr : ∀ c ∈ pre, Room cap c) (es1 es2 : List Ev) (sec : Bool) (len aad : Nat) :
    CanHang (StepCap cap) Good (start (aliceAll m top (pre ++ .decrypt es1 es2 sec len aad :: cs)),
      start (bobAll m top (pre ++ .decrypt es1 es2 sec len aad :: cs))) := by
  obtain ⟨top', q, hq, h1⟩ := run_prefix hc m top pre (.decrypt es1 es2 sec len aad :: cs) hr _ (.clean _ _)
  have g1 := gates_flow hc m top' es1
  have g2 := (gates_pair m top' es1).2
  have g3 := gates_flow hc m (eva m top' es1).2 es2
  have hf : Flow cap
      ((gen m top' es1).1 ++ .meet (.zk 128) :: (gen m (eva m top' es1).2 es2).1 ++
        (if sec then [.meet (.zk (8 * len)), .recv .io "z" len] else []) ++ ole2kSend (tagBlocks len aad))
      ((eva m top' es1).1 ++ .meet (.zk 128) :: (eva m (eva m top' es1).2 es2).1 ++
        (if sec then [.meet (.zk (8 * len)), .send .io "z" len] else []) ++ ole2kRecv (tagBlocks len aad)) := by
    refine .append (.append (.append g1 (.cons (.meet hc _) g3)) ?_) (ole2k_flow hc _)
    cases sec
    · exact .nil
    · exact .cons (.meet hc _) (.symm (.msg hc _ _))
  simp only [aliceAll, bobAll, alice, bob, g2, List.append_assoc] at hq hf
  obtain ⟨q', hq', h2⟩ := hf _ _ q (by simpa only [List.append_assoc, List.cons_append] using hq)
  obtain ⟨w, hw, j⟩ := jam hc [("com A", 32)] [("com B", 32)] (by simpa [bytes] using h32) (by simpa [bytes] using h32) _ _ hq'
  exact Jam.hangs good_todo (h1.trans (h2.trans hw)) j

/-- `encrypt` needs 16 bytes: over smaller connections it can hang at the shares of the tag. -/
theorem C95_encrypt_too_small (cap : Nat) (hc : 0 < cap) (h16 : cap < 16) (m : Mode) (top : Nat) (pre cs : List Call)
    (hr : ∀ c ∈ pre, Room cap c) (es1 es2 : List Ev) (sec : Bool) (len aad : Nat) :
    CanHang (StepCap cap) Good (start (aliceAll m top (pre ++ .encrypt es1 es2 sec len aad :: cs)),
      start (bobAll m top (pre ++ .encrypt es1 es2 sec len aad :: cs))) := by
  obtain ⟨top', ⟨s, t⟩, hq, h1⟩ := run_prefix hc m top pre (.encrypt es1 es2 sec len aad :: cs) hr _ (.clean _ _)
  have g1 := gates_flow hc m top' es1
  have g2 := (gates_pair m top' es1).2
  have g3 := gates_flow hc m (eva m top' es1).2 es2
  have hf : Flow cap
      ((gen m top' es1).1 ++ .meet (.zk 128) :: (gen m (eva m top' es1).2 es2).1 ++
        (if sec then [.meet (.zk (8 * len)), .send .io "masked" len, .recv .io "ctxt" len] else []) ++ ole2kSend (tagBlocks len aad))
      ((eva m top' es1).1 ++ .meet (.zk 128) :: (eva m (eva m top' es1).2 es2).1 ++
        (if sec then [.meet (.zk (8 * len)), .recv .io "masked" len, .send .io "ctxt" len] else []) ++ ole2kRecv (tagBlocks len aad)) := by
    refine .append (.append (.append g1 (.cons (.meet hc _) g3)) ?_) (ole2k_flow hc _)
    cases sec
    · exact .nil
    · exact .cons (.meet hc _) (.cons (.msg hc _ _) (.symm (.msg hc _ _)))
  simp only [aliceAll, bobAll, alice, bob, g2, List.append_assoc] at hq hf
  obtain ⟨⟨s', t'⟩, hq', h2⟩ := hf _ _ (s, t) (by simpa only [List.append_assoc, List.cons_append] using hq)
  obtain ⟨⟨w, w'⟩, hw, j⟩ := jam hc [("tag B", 16)] [("tag A", 16)] (by simpa [bytes] using h16) (by simpa [bytes] using h16) _ _ hq'.swap
  exact Jam.hangs_swap good_todo ((h1.trans h2).swap.trans hw) j

/-- An opening of `E2F` after any calls. -/
theorem C95_opening_after (cap : Nat) (hc : 0 < cap) (m : Mode) (top : Nat) (pre cs : List Call) (hr : ∀ c ∈ pre, Room cap c)
    (xs1 ys1 xs2 ys2 xs3 ys3 : List Nat) (hx : cap < size xs1) (hy : cap < size ys1) :
    CanHang (StepCap cap) Good (start (aliceAll m top (pre ++ .pmsOnline xs1 ys1 xs2 ys2 xs3 ys3 :: cs)),
      start (bobAll m top (pre ++ .pmsOnline xs1 ys1 xs2 ys2 xs3 ys3 :: cs))) := by
  obtain ⟨top', q, hq, h1⟩ := run_prefix hc m top pre (.pmsOnline xs1 ys1 xs2 ys2 xs3 ys3 :: cs) hr _ (.clean _ _)
  rw [← length_bytes] at hx hy
  simp only [aliceAll, bobAll, alice, bob, openAlice, openBob, List.append_assoc, List.cons_append] at hq
  obtain ⟨w, hw, j⟩ := jam hc (bns xs1) (bns ys1) hx hy _ _ hq
  exact Jam.hangs good_todo (h1.trans hw) j

theorem ends_not_hang {α : Type} {R : α → α → Prop} {P : α → Prop} {s : α} (h : AlwaysEnds R P s) : ¬ CanHang R P s := by
  rintro ⟨n, t, h1, h2, h3⟩
  rcases h.2 n t h1 with g | ⟨u, g⟩
  · exact h2 g
  · exact h3 u g

/-- What records need is exactly this: sessions of records, in any number and order, always end if the connections hold 32 bytes, and
as soon as one of them is decrypted, only then. -/
theorem C95_records_exact (cap : Nat) (hc : 0 < cap) (m : Mode) (top : Nat) (cs : List Call)
    (hd : ∃ es1 es2 sec len aad, Call.decrypt es1 es2 sec len aad ∈ cs)
    (hcs : ∀ c ∈ cs, (∃ es, c = .gates es) ∨ (∃ es1 es2 sec len aad, c = .encrypt es1 es2 sec len aad)
      ∨ ∃ es1 es2 sec len aad, c = .decrypt es1 es2 sec len aad) :
    AlwaysEnds (StepCap cap) Good (start (aliceAll m top cs), start (bobAll m top cs)) ↔ 32 ≤ cap := by
  constructor
  · intro h
    by_contra hlt
    have hlt : cap < 32 := by omega
    -- the first call that does not fit
    have key : ∀ (l pre : List Call), cs = pre ++ l → (∀ c ∈ pre, Room cap c)
        → (∃ es1 es2 sec len aad, Call.decrypt es1 es2 sec len aad ∈ l)
        → CanHang (StepCap cap) Good (start (aliceAll m top cs), start (bobAll m top cs)) := by
      intro l
      induction l with
      | nil => rintro pre - - ⟨_, _, _, _, _, h⟩; simp at h
      | cons c l ih =>
        intro pre he hpre hex
        by_cases hroom : Room cap c
        · refine ih (pre ++ [c]) (by simp [he]) ?_ ?_
          · intro d hd'
            rcases List.mem_append.1 hd' with h | h
            · exact hpre d h
            · rw [List.mem_singleton.1 h]; exact hroom
          · obtain ⟨es1, es2, sec, len, aad, hm⟩ := hex
            rcases List.mem_cons.1 hm with rfl | hm
            · exact absurd hroom (by simp only [Room]; omega)
            · exact ⟨es1, es2, sec, len, aad, hm⟩
        · rcases hcs c (by rw [he]; simp) with ⟨es, rfl⟩ | ⟨es1, es2, sec, len, aad, rfl⟩ | ⟨es1, es2, sec, len, aad, rfl⟩
          · exact absurd trivial hroom
          · rw [he]; exact C95_encrypt_too_small cap hc (by simp only [Room] at hroom; omega) m top pre l hpre es1 es2 sec len aad
          · rw [he]; exact C95_decrypt_too_small cap hc hlt m top pre l hpre es1 es2 sec len aad
    exact ends_not_hang h (key cs [] rfl (by simp) hd)
  · intro h
    refine C95_session cap hc m top cs fun c hm => ?_
    rcases hcs c hm with ⟨es, rfl⟩ | ⟨es1, es2, sec, len, aad, rfl⟩ | ⟨es1, es2, sec, len, aad, rfl⟩
    · trivial
    · exact Nat.le_trans (by decide) h
    · exact h

/-- Two records after a circuit: 31 bytes are not enough, 32 are. -/
example (es : List Ev) : ∀ cap, cap = 31 ∨ cap = 32 →
    (AlwaysEnds (StepCap cap) Good
      (start (aliceAll .online 0 [.gates es, .encrypt es [] true 300 13, .decrypt es es false 16 13]),
       start (bobAll .online 0 [.gates es, .encrypt es [] true 300 13, .decrypt es es false 16 13])) ↔ cap = 32) := by
  rintro cap (rfl | rfl) <;> rw [C95_records_exact _ (by decide) _ _ _ ⟨es, es, false, 16, 13, by simp⟩ (by simp)] <;> decide

/-- The hypotheses of the others. -/
example := C95_encrypt_too_small 15 (by decide) (by decide) (.direct 1000) 0 [.dh, .gates [.feedB 3, .and]] [] (by simp [Room]) [.and] [] true 5 13
example := C95_opening_after 71 (by decide) (.direct 1000) 0 [.dh, .gates [.feedB 3, .and]] [] (by simp [Room]) [32, 32] [32, 32] [32] [32] [32] [32]
  (by decide) (by decide)

end Verif.Props.WireCap
