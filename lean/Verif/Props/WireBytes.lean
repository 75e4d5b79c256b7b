import Verif.Props.WireTag

/-!
# C97: how many bytes each party puts on each connection

The cost of a session is the sum of the costs of its calls; a cost depends on lengths only.  What emp-ot and emp-zk send themselves (`meet`)
is not counted.
-/

namespace Verif.Props.WireBytes
open Verif.Model Verif.Model.Wire

/-- Bytes a party sends on a connection. -/
def sent (c : Chan) : List Act → Nat
  | [] => 0
  | .send d _ n :: r => (if d = c then n else 0) + sent c r
  | _ :: r => sent c r

/-- Bytes a party receives on a connection. -/
def received (c : Chan) : List Act → Nat
  | [] => 0
  | .recv d _ n :: r => (if d = c then n else 0) + received c r
  | _ :: r => received c r

/-- An operation at the garbler. -/
def evA : Mode → Ev → Nat
  | .direct _, .and => 32
  | .direct _, .openP _ k => k
  | .direct _, .openB _ k => k
  | .online, .feedA n => 16 * n
  | .online, .openB n _ => n
  | _, _ => 0

/-- An operation at the evaluator. -/
def evB : Mode → Ev → Nat
  | .direct batch, .feedB n => if batch < n then 0 else n
  | .direct _, .openA _ k => k
  | .online, .openA n _ => n
  | _, .openP n _ => n + 32
  | _, _ => 0

/-- An operation of the offline phase at the garbler; the evaluator sends nothing. -/
def offA : Ev → Nat
  | .and => 32
  | .openP n _ => n
  | _ => 0

/-- Numbers with their lengths. -/
def numbers (l : List Nat) : Nat := (l.map (4 + ·)).sum

/-- Blocks a tag is made of. -/
def blocks (len aad : Nat) : Nat := (len + 15) / 16 + (aad + 15) / 16 + 1

/-- What a call costs ALICE. -/
def costA (m : Mode) : Chan → Call → Nat
  | .io, .gates es => (es.map (evA m)).sum
  | .io, .offline es => (es.map offA).sum
  | .io, .pmsOffline _ lens => (lens.map numbers).sum
  | .io, .pmsOnline xs1 _ xs2 _ xs3 _ => numbers xs1 + numbers xs2 + numbers xs3
  | .io, .aead es => (es.map (evA m)).sum + 2048 + 16
  | .io, .encrypt es1 es2 sec len aad =>
    ((es1 ++ es2).map (evA m)).sum + (if sec then len else 0) + 2048 * blocks len aad
  | .opt, .encrypt _ _ _ _ _ => 16
  | .io, .decrypt es1 es2 _ len aad => ((es1 ++ es2).map (evA m)).sum + 2048 * blocks len aad + 64
  | .io, .convert aliceOle v =>
    (if aliceOle then numbers v.mask else 0) + 65 * (v.chunks + 1) + 32 + numbers [v.rndY, v.msgY] + 16 + numbers [v.yMac]
  | _, _ => 0

/-- What a call costs BOB. -/
def costB (m : Mode) : Chan → Call → Nat
  | .io, .gates es => (es.map (evB m)).sum
  | .io, .dh => 65
  | .opt, .pmsOnline _ ys1 _ ys2 _ ys3 => numbers ys1 + numbers ys2 + numbers ys3
  | .io, .aead es => (es.map (evB m)).sum
  | .io, .encrypt es1 es2 sec len _ => ((es1 ++ es2).map (evB m)).sum + (if sec then len else 0) + 16
  | .io, .decrypt es1 es2 sec len _ => ((es1 ++ es2).map (evB m)).sum + (if sec then len else 0)
  | .opt, .decrypt _ _ _ _ _ => 64
  | .io, .revealPms n => numbers [n]
  | .io, .convert aliceOle v => 32 + (if aliceOle then 0 else numbers v.mask) + numbers v.msgs + 32 + numbers [v.aDelta]
  | _, _ => 0

theorem sent_append (c : Chan) (x y : List Act) : sent c (x ++ y) = sent c x + sent c y := by
  induction x with
  | nil => simp [sent]
  | cons a x ih => cases a <;> simp [sent, ih]; omega

theorem received_append (c : Chan) (x y : List Act) : received c (x ++ y) = received c x + received c y := by
  induction x with
  | nil => simp [received]
  | cons a x ih => cases a <;> simp [received, ih]; omega

theorem sent_sendN (c d : Chan) (l : String) (n k : Nat) : sent c (sendN d l n k) = if d = c then n * k else 0 := by
  induction n with
  | zero => simp [sendN, sent]
  | succ n ih =>
    simp only [sendN, List.replicate_succ, sent] at ih ⊢
    rw [ih]; split <;> simp [Nat.succ_mul]; omega

theorem received_sendN (c d : Chan) (l : String) (n k : Nat) : received c (sendN d l n k) = 0 := by
  induction n with
  | zero => rfl
  | succ n ih => simpa only [sendN, List.replicate_succ, received] using ih

theorem received_recvN (c d : Chan) (l : String) (n k : Nat) : received c (recvN d l n k) = if d = c then n * k else 0 := by
  induction n with
  | zero => simp [recvN, received]
  | succ n ih =>
    simp only [recvN, List.replicate_succ, received] at ih ⊢
    rw [ih]; split <;> simp [Nat.succ_mul]; omega

theorem sent_recvN (c d : Chan) (l : String) (n k : Nat) : sent c (recvN d l n k) = 0 := by
  induction n with
  | zero => rfl
  | succ n ih => simpa only [recvN, List.replicate_succ, sent] using ih

theorem sent_sends (c d : Chan) (xs : List (String × Nat)) : sent c (sends d xs) = if d = c then (xs.map (·.2)).sum else 0 := by
  induction xs with
  | nil => simp [sends, sent]
  | cons x xs ih =>
    simp only [sends, List.map_cons, sent, List.sum_cons] at ih ⊢
    rw [ih]; split <;> rfl

theorem received_sends (c d : Chan) (xs : List (String × Nat)) : received c (sends d xs) = 0 := by
  induction xs with
  | nil => rfl
  | cons x xs ih => simpa only [sends, List.map_cons, received] using ih

theorem received_recvs (c d : Chan) (xs : List (String × Nat)) : received c (recvs d xs) = if d = c then (xs.map (·.2)).sum else 0 := by
  induction xs with
  | nil => simp [recvs, received]
  | cons x xs ih =>
    simp only [recvs, List.map_cons, received, List.sum_cons] at ih ⊢
    rw [ih]; split <;> rfl

theorem sent_recvs (c d : Chan) (xs : List (String × Nat)) : sent c (recvs d xs) = 0 := by
  induction xs with
  | nil => rfl
  | cons x xs ih => simpa only [recvs, List.map_cons, sent] using ih

theorem sum_bns (l : List Nat) : ((bns l).map (·.2)).sum = numbers l := by
  induction l with
  | nil => rfl
  | cons n l ih =>
    simp only [bns, List.flatMap_cons, bn, List.map_append, List.sum_append, numbers, List.map_cons, List.sum_cons] at ih ⊢
    simp [ih]

theorem sum_bn (n : Nat) : ((bn n).map (·.2)).sum = 4 + n := rfl

theorem ole_sent (c : Chan) (bits : Nat) (lens : List (List Nat)) :
    sent c (oleSend bits lens) = (if Chan.io = c then (lens.map numbers).sum else 0) ∧ received c (oleSend bits lens) = 0 ∧
    received c (oleRecv bits lens) = (if Chan.io = c then (lens.map numbers).sum else 0) ∧ sent c (oleRecv bits lens) = 0 := by
  simp only [oleSend, oleRecv, sent, received]
  generalize lens.length = k
  induction lens with
  | nil => simp [sent, received]
  | cons l lens ih =>
    obtain ⟨h1, h2, h3, h4⟩ := ih
    simp only [List.flatMap_cons, sent_append, received_append, h1, h2, h3, h4, sent_sends, received_sends, sent_recvs, received_recvs,
      sum_bns, sent, received, List.map_cons, List.sum_cons]
    cases c <;> simp

theorem ole2k_sent (c : Chan) (n : Nat) :
    sent c (ole2kSend n) = (if Chan.io = c then 2048 * n else 0) ∧ received c (ole2kSend n) = 0 ∧
    received c (ole2kRecv n) = (if Chan.io = c then 2048 * n else 0) ∧ sent c (ole2kRecv n) = 0 := by
  simp only [ole2kSend, ole2kRecv, sent, received]
  generalize n * 128 = k
  induction n with
  | zero => simp [sent, received]
  | succ n ih =>
    obtain ⟨h1, h2, h3, h4⟩ := ih
    simp only [List.replicate_succ, List.flatten_cons, sent_append, received_append, h1, h2, h3, h4, sent_sendN, received_sendN, sent, received]
    cases c <;> simp <;> omega

theorem gen_bytes (m : Mode) (c : Chan) (es : List Ev) : ∀ top,
    sent c (gen m top es).1 = (if Chan.io = c then (es.map (evA m)).sum else 0) ∧
    received c (gen m top es).1 = (if Chan.io = c then (es.map (evB m)).sum else 0) := by
  induction es with
  | nil => intro top; simp [gen, sent, received]
  | cons e es ih =>
    intro top
    cases m with
    | direct batch =>
      simp only [gen, sent_append, received_append, (ih _).1, (ih _).2, List.map_cons, List.sum_cons]
      cases e <;> simp only [genDirect, evA, evB]
      case feedB n =>
        split
        · cases c <;> simp [sent, received]
        · split <;> cases c <;> simp [sent, received]
      all_goals cases c <;> simp [sent, received, sent_append, received_append, sent_sendN, received_sendN, sent_recvN, received_recvN]
      all_goals omega
    | online =>
      simp only [gen, sent_append, received_append, (ih _).1, (ih _).2, List.map_cons, List.sum_cons]
      cases e <;> simp only [genOnline, evA, evB]
      all_goals cases c <;> simp [sent, received, sent_sendN, received_sendN, sent_recvN, received_recvN]
      all_goals omega

theorem eva_bytes (m : Mode) (c : Chan) (es : List Ev) : ∀ top,
    sent c (eva m top es).1 = (if Chan.io = c then (es.map (evB m)).sum else 0) ∧
    received c (eva m top es).1 = (if Chan.io = c then (es.map (evA m)).sum else 0) := by
  induction es with
  | nil => intro top; simp [eva, sent, received]
  | cons e es ih =>
    intro top
    cases m with
    | direct batch =>
      simp only [eva, sent_append, received_append, (ih _).1, (ih _).2, List.map_cons, List.sum_cons]
      cases e <;> simp only [evaDirect, evA, evB]
      case feedB n =>
        split
        · cases c <;> simp [sent, received]
        · split <;> cases c <;> simp [sent, received]
      all_goals cases c <;> simp [sent, received, sent_append, received_append, sent_sendN, received_sendN, sent_recvN, received_recvN]
      all_goals omega
    | online =>
      simp only [eva, sent_append, received_append, (ih _).1, (ih _).2, List.map_cons, List.sum_cons]
      cases e <;> simp only [evaOnline, evA, evB]
      all_goals cases c <;> simp [sent, received, sent_sendN, received_sendN, sent_recvN, received_recvN]
      all_goals omega

theorem offline_bytes (c : Chan) (es : List Ev) :
    sent c (es.flatMap genOffline) = (if Chan.io = c then (es.map offA).sum else 0) ∧ received c (es.flatMap genOffline) = 0 ∧
    received c (es.flatMap evaOffline) = (if Chan.io = c then (es.map offA).sum else 0) ∧ sent c (es.flatMap evaOffline) = 0 := by
  induction es with
  | nil => simp [sent, received]
  | cons e es ih =>
    obtain ⟨h1, h2, h3, h4⟩ := ih
    simp only [List.flatMap_cons, sent_append, received_append, h1, h2, h3, h4, List.map_cons, List.sum_cons]
    cases e <;> cases c <;> simp [genOffline, evaOffline, offA, sent, received, sent_sendN, received_sendN, sent_recvN, received_recvN]

/-- One call: what each party sends is its cost, what it receives is the cost of the other. -/
theorem C97_call (m : Mode) (top top' : Nat) (c : Chan) (x : Call) :
    sent c (alice m top x).1 = costA m c x ∧ sent c (bob m top' x).1 = costB m c x ∧
    received c (alice m top x).1 = costB m c x ∧ received c (bob m top' x).1 = costA m c x := by
  have tb : ∀ len aad, tagBlocks len aad = blocks len aad := fun len aad => Wire.C93_tag_blocks_closed len aad
  cases x with
  | gates es => cases c <;> simp [alice, bob, gen_bytes, eva_bytes, costA, costB]
  | offline es => cases c <;> simp [alice, bob, offline_bytes, costA, costB]
  | zk n => cases c <;> simp [alice, bob, sent, received, costA, costB]
  | dh => cases c <;> simp [alice, bob, sent, received, costA, costB]
  | pmsOffline bits lens => cases c <;> simp [alice, bob, ole_sent, costA, costB]
  | pmsOnline xs1 ys1 xs2 ys2 xs3 ys3 =>
    cases c <;> simp [alice, bob, openAlice, openBob, sent_append, received_append, sent, received, sent_sends, received_sends, sent_recvs,
      received_recvs, sum_bns, costA, costB]
    all_goals omega
  | aead es =>
    cases c <;> simp [alice, bob, sent_append, received_append, sent, received, gen_bytes, eva_bytes, ole2k_sent, costA, costB]
    all_goals omega
  | encrypt es1 es2 sec len aad =>
    cases sec <;> cases c <;> simp [alice, bob, sent_append, received_append, sent, received, gen_bytes, eva_bytes, ole2k_sent, tb, costA, costB]
    all_goals omega
  | decrypt es1 es2 sec len aad =>
    cases sec <;> cases c <;> simp [alice, bob, sent_append, received_append, sent, received, gen_bytes, eva_bytes, ole2k_sent, tb, costA, costB]
    all_goals omega
  | revealPms n =>
    cases c <;> simp [alice, bob, sent_sends, received_sends, sent_recvs, received_recvs, sum_bn, numbers, costA, costB]
  | convert o v =>
    cases o <;> cases c <;> simp [alice, bob, convSend, convRecv, sent_append, received_append, sent, received, sent_sends, received_sends, sent_recvs,
      received_recvs, sent_sendN, received_sendN, sent_recvN, received_recvN, sum_bn, sum_bns, ole_sent, numbers, costA, costB]
    all_goals omega

/-- A session: on each connection each party sends the sum of the costs of its calls, and receives what the other sends; positions in the
buffer of correlations play no part. -/
theorem C97_session (m : Mode) (c : Chan) (cs : List Call) : ∀ top top',
    sent c (aliceAll m top cs) = (cs.map (costA m c)).sum ∧ sent c (bobAll m top' cs) = (cs.map (costB m c)).sum ∧
    received c (aliceAll m top cs) = (cs.map (costB m c)).sum ∧ received c (bobAll m top' cs) = (cs.map (costA m c)).sum := by
  induction cs with
  | nil => intro top top'; simp [aliceAll, bobAll, sent, received]
  | cons x cs ih =>
    intro top top'
    obtain ⟨h1, h2, h3, h4⟩ := C97_call m top top' c x
    obtain ⟨i1, i2, i3, i4⟩ := ih (alice m top x).2 (bob m top' x).2
    simp only [aliceAll, bobAll, sent_append, received_append, List.map_cons, List.sum_cons, h1, h2, h3, h4, i1, i2, i3, i4]
    exact ⟨trivial, trivial, trivial, trivial⟩

/-- Every byte of a record, and of its additional data, makes ALICE send at least 128, apart from the gates. -/
theorem C97_overhead (m : Mode) (top : Nat) (es1 es2 : List Ev) (sec : Bool) (len aad : Nat) :
    128 * (len + aad) + 2048 ≤ sent .io (alice m top (.encrypt es1 es2 sec len aad)).1 ∧
    128 * (len + aad) + 2048 ≤ sent .io (alice m top (.decrypt es1 es2 sec len aad)).1 := by
  rw [(C97_call m top top .io _).1, (C97_call m top top .io _).1]
  simp only [costA, blocks]
  constructor <;> omega

/-- With an offline phase the tables are sent before: the online phase costs the same whatever the number of conjunctions. -/
theorem C97_tables_before (c : Chan) (top top' : Nat) (es : List Ev) :
    sent c (alice .online top (.gates es)).1 = sent c (alice .online top' (.gates (es.filter (· ≠ .and)))).1 ∧
    sent .io (alice .online top (.offline es)).1
      = 32 * es.count .and + sent .io (alice .online top' (.offline (es.filter (· ≠ .and)))).1 := by
  rw [(C97_call _ _ 0 _ _).1, (C97_call _ _ 0 _ _).1, (C97_call _ _ 0 _ _).1, (C97_call _ _ 0 _ _).1]
  constructor
  · cases c
    · simp only [costA]
      induction es with
      | nil => rfl
      | cons e es ih => cases e <;> simp [evA, ih] at ih ⊢
    · rfl
  · simp only [costA]
    induction es with
    | nil => rfl
    | cons e es ih => cases e <;> simp [offA] at ih ⊢ <;> omega

/-- A record of 100 bytes with 13 bytes of additional data, no gates. -/
example : sent .io (alice .online 0 (.encrypt [] [] false 100 13)).1 = 18432
    ∧ sent .io (alice .online 0 (.decrypt [.and, .feedA 3, .openB 128 5] [] true 100 13)).1 = 18672 := by
  constructor <;> rw [(C97_call _ _ 0 _ _).1] <;> rfl

end Verif.Props.WireBytes
