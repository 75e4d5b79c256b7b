import Verif.Lemmas.Wire

/-! # The calls of the two parties fit together (C93) -/

namespace Verif.Lemmas.Wire

open Verif.Model.Wire Verif.Spec

/-! ### Putting runs together -/

def Reach (p q : EC) : Prop := ∃ n, Steps EStep n p q

theorem Reach.refl (p : EC) : Reach p p := ⟨0, .zero p⟩

theorem Reach.trans {p q r : EC} (h : Reach p q) (g : Reach q r) : Reach p r := by
  obtain ⟨n, h⟩ := h
  obtain ⟨m, g⟩ := g
  exact ⟨n + m, Wire.Steps.trans h g⟩

theorem Reach.one {p q : EC} (h : EStep p q) : Reach p q := ⟨1, Wire.Steps.single h⟩

theorem Reach.swap {a b a' b' : List Act} {x y x' y' : Net} (h : Reach ⟨a, b, x, y⟩ ⟨a', b', x', y'⟩) :
    Reach ⟨b, a, y, x⟩ ⟨b', a', y', x'⟩ := by
  have sw : ∀ {n : Nat} {p q : EC}, Steps EStep n p q →
      Steps EStep n ⟨p.b, p.a, p.ba, p.ab⟩ ⟨q.b, q.a, q.ba, q.ab⟩ := by
    intro n p q h
    induction h with
    | zero s => exact .zero _
    | succ h _ ih =>
      refine .succ ?_ ih
      cases h with
      | left h => exact .right h
      | right h => exact .left h
      | meet => exact .meet ..
  obtain ⟨n, h⟩ := h
  exact ⟨n, sw h⟩

theorem EAct.frame {a a' : List Act} {o i o' i' : Net} (h : EAct a o i a' o' i') (c : List Act) :
    EAct (a ++ c) o i (a' ++ c) o' i' := by
  cases h with
  | send => exact .send ..
  | flush => exact .flush ..
  | recv _ _ _ _ _ _ _ h => exact .recv _ _ _ _ _ _ _ h

theorem frame {n : Nat} {p q : EC} (h : Steps EStep n p q) (c d : List Act) :
    Steps EStep n ⟨p.a ++ c, p.b ++ d, p.ab, p.ba⟩ ⟨q.a ++ c, q.b ++ d, q.ab, q.ba⟩ := by
  induction h with
  | zero s => exact .zero _
  | succ h _ ih =>
    refine .succ ?_ ih
    cases h with
    | left h => exact .left (h.frame c)
    | right h => exact .right (h.frame d)
    | meet => exact .meet ..

theorem Fits.nil : Fits [] [] := ⟨0, .zero _⟩

theorem Fits.append {a b c d : List Act} (h : Fits a b) (g : Fits c d) : Fits (a ++ c) (b ++ d) := by
  obtain ⟨n, h⟩ := h
  obtain ⟨m, g⟩ := g
  exact ⟨n + m, Wire.Steps.trans (frame h c d) g⟩

theorem Fits.symm {a b : List Act} (h : Fits a b) : Fits b a := Reach.swap h

theorem Fits.meet (m : Meet) : Fits [.meet m] [.meet m] := Reach.one (.meet ..)

theorem Fits.flush (c : Chan) : Fits [.flush c] [] := Reach.one (.left (.flush ..))

/-- The bytes of several messages. -/
def bytes (xs : List (String × Nat)) : List String := xs.flatMap fun x => List.replicate x.2 x.1

theorem reach_sends (c : Chan) (xs : List (String × Nat)) (r b : List Act) (x y : Net) :
    Reach ⟨sends c xs ++ r, b, x, y⟩ ⟨r, b, app x c (bytes xs), y⟩ := by
  induction xs generalizing x with
  | nil => simp only [bytes, List.flatMap_nil, app_nil]; exact .refl _
  | cons z zs ih =>
    have h := ih (app x c (List.replicate z.2 z.1))
    rw [app_app] at h
    exact .trans (.one (.left (.send ..))) h

theorem reach_recvs (c : Chan) (xs : List (String × Nat)) (r b : List Act) (x y : Net) :
    Reach ⟨recvs c xs ++ r, b, x, prep y c (bytes xs)⟩ ⟨r, b, x, y⟩ := by
  induction xs with
  | nil => simp only [bytes, List.flatMap_nil, prep_nil]; exact .refl _
  | cons z zs ih =>
    refine .trans (.one (.left (.recv _ _ _ _ _ _ (prep y c (bytes zs)) ?_))) ih
    rw [prep_prep]
    rfl

theorem none'_app (c : Chan) (x : List String) : app none' c x = prep none' c x := app_empty c x

/-- What one party sends and the other expects. -/
theorem Fits.msgs (c : Chan) {xs ys : List (String × Nat)} (h : bytes xs = bytes ys) : Fits (sends c xs) (recvs c ys) := by
  have h1 := reach_sends c xs [] (recvs c ys) none' none'
  have h2 := (reach_recvs c ys [] [] none' none').swap
  rw [none'_app, h] at h1
  simp only [List.append_nil] at h1 h2
  exact h1.trans h2

/-- Both parties send before they wait. -/
theorem Fits.cross (c d : Chan) (xs ys : List (String × Nat)) :
    Fits (sends c xs ++ .flush c :: recvs d ys) (sends d ys ++ .flush d :: recvs c xs) := by
  have h1 := reach_sends c xs (.flush c :: recvs d ys) (sends d ys ++ .flush d :: recvs c xs) none' none'
  have h2 := (reach_sends d ys (.flush d :: recvs c xs) (.flush c :: recvs d ys) none' (app none' c (bytes xs))).swap
  have h3 : Reach ⟨.flush c :: recvs d ys, .flush d :: recvs c xs, app none' c (bytes xs), app none' d (bytes ys)⟩
      ⟨recvs d ys, recvs c xs, app none' c (bytes xs), app none' d (bytes ys)⟩ :=
    .trans (.one (.left (.flush ..))) (.one (.right (.flush ..)))
  have h4 := reach_recvs d ys [] (recvs c xs) (app none' c (bytes xs)) none'
  have h5 := (reach_recvs c xs [] [] none' none').swap
  rw [← none'_app] at h4 h5
  simp only [List.append_nil] at h4 h5
  exact h1.trans (h2.trans (h3.trans (h4.trans h5)))

/-! ### Parties that hold nothing back while they wait -/

theorem scan_append (a b : List Act) (i o : Bool) :
    scan i o (a ++ b) = (scan i o a).bind fun p => scan p.1 p.2 b := by
  induction a generalizing i o with
  | nil => rfl
  | cons x r ih =>
    cases x with
    | send c l n => cases c <;> exact ih ..
    | flush c => cases c <;> exact ih ..
    | recv c l n =>
      cases c
      · cases o
        · exact ih ..
        · rfl
      · cases i
        · exact ih ..
        · rfl
    | meet m =>
      cases o
      · exact ih ..
      · rfl

/-- Nothing is left in the buffer of `io_opt`. -/
def Clean (a : List Act) : Prop := ∀ i, ∃ i', scan i false a = some (i', false)

theorem Clean.nil : Clean [] := fun i => ⟨i, rfl⟩

theorem Clean.append {a b : List Act} (h : Clean a) (g : Clean b) : Clean (a ++ b) := by
  intro i
  obtain ⟨j, hj⟩ := h i
  obtain ⟨k, hk⟩ := g j
  exact ⟨k, by rw [scan_append, hj]; exact hk⟩

theorem Clean.cons {x : Act} {b : List Act} (h : Clean [x]) (g : Clean b) : Clean (x :: b) := h.append g

theorem Clean.send (l : String) (n : Nat) : Clean [.send .io l n] := fun _ => ⟨true, rfl⟩

theorem Clean.recv (l : String) (n : Nat) : Clean [.recv .io l n] := fun _ => ⟨false, rfl⟩

theorem Clean.flush : Clean [.flush .io] := fun _ => ⟨false, rfl⟩

theorem Clean.meet (m : Meet) : Clean [.meet m] := fun _ => ⟨false, rfl⟩

theorem Clean.sends (xs : List (String × Nat)) : Clean (sends .io xs) := by
  induction xs with
  | nil => exact .nil
  | cons x xs ih => exact .cons (.send _ _) ih

theorem Clean.recvs (xs : List (String × Nat)) : Clean (recvs .io xs) := by
  induction xs with
  | nil => exact .nil
  | cons x xs ih => exact .cons (.recv _ _) ih

theorem scan_sends_opt (xs : List (String × Nat)) (i o : Bool) : ∃ o', scan i o (Model.Wire.sends .opt xs) = some (i, o') := by
  induction xs generalizing o with
  | nil => exact ⟨o, rfl⟩
  | cons x xs ih => exact ih true

theorem scan_recvs_opt (xs : List (String × Nat)) : scan false false (Model.Wire.recvs .opt xs) = some (false, false) := by
  induction xs with
  | nil => rfl
  | cons x xs ih => exact ih

/-- Messages on `io`, then waiting on `io_opt`. -/
theorem Clean.crossA (xs ys : List (String × Nat)) :
    Clean (Model.Wire.sends .io xs ++ .flush .io :: Model.Wire.recvs .opt ys) := by
  intro i
  obtain ⟨j, hj⟩ := Clean.sends xs i
  exact ⟨false, by rw [scan_append, hj]; exact scan_recvs_opt ys⟩

/-- Messages on `io_opt`, then waiting on `io`. -/
theorem Clean.crossB (xs ys : List (String × Nat)) :
    Clean (Model.Wire.sends .opt xs ++ .flush .opt :: Model.Wire.recvs .io ys) := by
  intro i
  obtain ⟨j, hj⟩ := scan_sends_opt xs i false
  obtain ⟨k, hk⟩ := Clean.recvs ys i
  exact ⟨k, by rw [scan_append, hj]; exact hk⟩

/-! ### Pieces of two parties -/

/-- Two pieces of code that fit and leave nothing in the buffers of `io_opt`. -/
structure Pair (a b : List Act) : Prop where
  fits : Fits a b
  left : Clean a
  right : Clean b

theorem Pair.nil : Pair [] [] := ⟨.nil, .nil, .nil⟩

theorem Pair.append {a b c d : List Act} (h : Pair a b) (g : Pair c d) : Pair (a ++ c) (b ++ d) :=
  ⟨h.fits.append g.fits, h.left.append g.left, h.right.append g.right⟩

theorem Pair.symm {a b : List Act} (h : Pair a b) : Pair b a := ⟨h.fits.symm, h.right, h.left⟩

theorem Pair.cons {x y : Act} {c d : List Act} (h : Pair [x] [y]) (g : Pair c d) : Pair (x :: c) (y :: d) := h.append g

theorem Pair.meet (m : Meet) : Pair [.meet m] [.meet m] := ⟨.meet m, .meet m, .meet m⟩

theorem Pair.flush : Pair [.flush .io] [] := ⟨.flush .io, .flush, .nil⟩

theorem Pair.msgs {xs ys : List (String × Nat)} (h : bytes xs = bytes ys) : Pair (sends .io xs) (recvs .io ys) :=
  ⟨.msgs .io h, .sends xs, .recvs ys⟩

theorem Pair.msg (l : String) (n : Nat) : Pair [.send .io l n] [.recv .io l n] :=
  Pair.msgs (xs := [(l, n)]) (ys := [(l, n)]) rfl

theorem Pair.cross (xs ys : List (String × Nat)) :
    Pair (sends .io xs ++ .flush .io :: recvs .opt ys) (sends .opt ys ++ .flush .opt :: recvs .io xs) :=
  ⟨.cross .io .opt xs ys, .crossA xs ys, .crossB ys xs⟩

theorem sendN_eq (c : Chan) (l : String) (n k : Nat) : sendN c l n k = sends c (List.replicate n (l, k)) := by
  simp [sendN, sends]

theorem recvN_eq (c : Chan) (l : String) (n k : Nat) : recvN c l n k = recvs c (List.replicate n (l, k)) := by
  simp [recvN, recvs]

theorem bytes_replicate (l : String) (n k : Nat) : bytes (List.replicate n (l, k)) = List.replicate (n * k) l := by
  induction n with
  | zero => simp [bytes]
  | succ n ih =>
    rw [List.replicate_succ, Nat.succ_mul, Nat.add_comm, ← List.replicate_append_replicate, ← ih]
    rfl

theorem Pair.loop (l : String) (n k : Nat) : Pair (sendN .io l n k) (recvN .io l n k) := by
  rw [sendN_eq, recvN_eq]
  exact .msgs rfl

theorem Pair.chunks (l : String) (n k : Nat) : Pair (sendN .io l n k) [.recv .io l (n * k)] := by
  rw [sendN_eq]
  refine Pair.msgs (ys := [(l, n * k)]) ?_
  rw [bytes_replicate]
  simp [bytes]

/-! ### Garbled circuits -/

theorem direct_pair (batch top : Nat) (e : Ev) :
    Pair (genDirect batch top e).1 (evaDirect batch top e).1 ∧ (genDirect batch top e).2 = (evaDirect batch top e).2 := by
  cases e with
  | and => exact ⟨.msg .., rfl⟩
  | feedA n => exact ⟨.nil, rfl⟩
  | feedB n =>
    simp only [genDirect, evaDirect]
    split
    · exact ⟨.meet _, rfl⟩
    · split
      · exact ⟨.cons (.meet _) (.symm (.msg ..)), rfl⟩
      · exact ⟨.symm (.msg ..), rfl⟩
  | openP n k => exact ⟨.append (.loop ..) (.cons (.symm (.msg ..)) (.symm (.msg ..))), rfl⟩
  | openA n k => exact ⟨.symm (.loop ..), rfl⟩
  | openB n k => exact ⟨.loop .., rfl⟩

theorem online_pair (e : Ev) : Pair (genOnline e) (evaOnline e) := by
  cases e with
  | and => exact .nil
  | feedA n => exact .chunks ..
  | feedB n => exact .meet _
  | openP n k => exact .cons (.symm (.msg ..)) (.symm (.msg ..))
  | openA n k => exact .symm (.loop ..)
  | openB n k => exact .loop ..

theorem offline_pair (e : Ev) : Pair (genOffline e) (evaOffline e) := by
  cases e with
  | and => exact .msg ..
  | feedA n => exact .nil
  | feedB n => exact .nil
  | openP n k => exact .loop ..
  | openA n k => exact .nil
  | openB n k => exact .nil

theorem gates_pair (m : Mode) (top : Nat) (es : List Ev) :
    Pair (gen m top es).1 (eva m top es).1 ∧ (gen m top es).2 = (eva m top es).2 := by
  induction es generalizing top with
  | nil => exact ⟨.nil, rfl⟩
  | cons e es ih =>
    cases m with
    | direct batch =>
      obtain ⟨h1, h2⟩ := direct_pair batch top e
      obtain ⟨h3, h4⟩ := ih (evaDirect batch top e).2
      simp only [gen, eva, h2]
      exact ⟨h1.append h3, h4⟩
    | online => exact ⟨(online_pair e).append (ih top).1, (ih top).2⟩

theorem offlines_pair (es : List Ev) : Pair (es.flatMap genOffline) (es.flatMap evaOffline) := by
  induction es with
  | nil => exact .nil
  | cons e es ih => exact (offline_pair e).append ih

/-! ### Protocols -/

theorem ole_pair (bits : Nat) (lens : List (List Nat)) : Pair (oleSend bits lens) (oleRecv bits lens) := by
  refine .cons (.meet _) ?_
  generalize lens = ls
  induction ls with
  | nil => exact .nil
  | cons l ls ih =>
    have h := (Pair.msgs (xs := bns l) rfl).append .flush
    rw [List.append_nil] at h
    exact h.append ih

theorem ole2k_pair (n : Nat) : Pair (ole2kSend n) (ole2kRecv n) := by
  refine .cons (.meet _) ?_
  induction n with
  | zero => exact .nil
  | succ n ih => exact Pair.append (.chunks "ole" 128 16) ih

theorem open_pair (xs ys : List Nat) : Pair (openAlice xs ys) (openBob xs ys) := .cross _ _

theorem conv_pair (v : Conv) {a b : List Act} (h : Pair a b) : Pair (convSend v a) (convRecv v b) := by
  refine .append (.append (.append (.append (.append (.append (.cons (.msg ..) h) (.msgs rfl)) (.symm (.loop ..)))
    (.cons (.symm (.msg ..)) (.symm (.msg ..)))) (.symm (.msgs rfl))) (.msgs rfl)) (.symm (.msgs rfl))

theorem call_pair (m : Mode) (top : Nat) (c : Call) :
    Pair (alice m top c).1 (bob m top c).1 ∧ (alice m top c).2 = (bob m top c).2 := by
  cases c with
  | gates es => exact gates_pair m top es
  | offline es => exact ⟨offlines_pair es, rfl⟩
  | zk n => exact ⟨.meet _, rfl⟩
  | dh => exact ⟨.symm (.msg ..), rfl⟩
  | pmsOffline bits lens => exact ⟨ole_pair .., rfl⟩
  | pmsOnline xs1 ys1 xs2 ys2 xs3 ys3 => exact ⟨.append (.append (open_pair ..) (open_pair ..)) (open_pair ..), rfl⟩
  | aead es =>
    obtain ⟨h1, h2⟩ := gates_pair m top es
    exact ⟨.append (.append h1 (ole2k_pair 1)) (.cons (.msg ..) (.meet _)), h2⟩
  | encrypt es1 es2 sec len aad =>
    obtain ⟨h1, h2⟩ := gates_pair m top es1
    obtain ⟨h3, h4⟩ := gates_pair m (eva m top es1).2 es2
    simp only [alice, bob, h2]
    refine ⟨?_, h4⟩
    refine .append (.append (.append (.append h1 (.cons (.meet _) h3)) ?_) (ole2k_pair _)) ?_
    · cases sec
      · exact .nil
      · exact .cons (.meet _) (.cons (.msg ..) (.symm (.msg ..)))
    · exact (Pair.cross [("tag B", 16)] [("tag A", 16)]).symm
  | decrypt es1 es2 sec len aad =>
    obtain ⟨h1, h2⟩ := gates_pair m top es1
    obtain ⟨h3, h4⟩ := gates_pair m (eva m top es1).2 es2
    simp only [alice, bob, h2]
    refine ⟨?_, h4⟩
    refine .append (.append (.append (.append (.append h1 (.cons (.meet _) h3)) ?_) (ole2k_pair _)) ?_) ?_
    · cases sec
      · exact .nil
      · exact .cons (.meet _) (.symm (.msg ..))
    · exact Pair.cross [("com A", 32)] [("com B", 32)]
    · exact Pair.cross [("tag A", 16), ("rnd A", 16)] [("tag B", 16), ("rnd B", 16)]
  | revealPms n => exact ⟨.symm (.msgs rfl), rfl⟩
  | convert aliceOle v =>
    cases aliceOle
    · exact ⟨.symm (conv_pair v (ole_pair ..)), rfl⟩
    · exact ⟨.symm (conv_pair v (.symm (ole_pair ..))), rfl⟩

theorem session_pair (m : Mode) (top : Nat) (cs : List Call) :
    Fits (aliceAll m top cs) (bobAll m top cs) ∧ (∀ i, scan i false (aliceAll m top cs) = some (false, false)) ∧
      ∀ i, scan i false (bobAll m top cs) = some (false, false) := by
  induction cs generalizing top with
  | nil => exact ⟨.meet _, fun _ => rfl, fun _ => rfl⟩
  | cons c cs ih =>
    obtain ⟨h1, h2⟩ := call_pair m top c
    simp only [aliceAll, bobAll, h2]
    obtain ⟨h3, h4, h5⟩ := ih (bob m top c).2
    refine ⟨h1.fits.append h3, fun i => ?_, fun i => ?_⟩
    · obtain ⟨j, hj⟩ := h1.left i
      rw [scan_append, hj]
      exact h4 j
    · obtain ⟨j, hj⟩ := h1.right i
      rw [scan_append, hj]
      exact h5 j

end Verif.Lemmas.Wire
