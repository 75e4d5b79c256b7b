import Verif.Lemmas.Profile
import Verif.Model.GateRecord
import Verif.Props.Garbled
import Verif.Props.BackendAdvantage

/-!
C70: what a connection feeds and opens, and how many gates it has.

The profile of a connection (`Verif.Spec.Profile`) is computed from public lengths and the shares of BOB only.
-/

namespace Verif.Props.Profile
open Verif.Model Verif.Model.Gate Verif.Lemmas.Profile
open Verif.Lemmas.Gate (LibObl Same Matches erase empLib_obl plain)
open Verif.Spec.Circuit (Op Party)
open Verif.Spec.Profile (Item Cost)
open Verif.Props.EvaluatorBound (ands)
open Verif.Props.BackendBound (inputsA inputsB wires)

variable {L : Lib}

/-- The connection, from its first call on. -/
abbrev conn (L : Lib) (q : Nat) (rounds : Bool) (ops : List Call) : M (List Out × ConnG) := ConnG.run L { hs := { q := q, roundsOpt := rounds } } ops

/-- The profile it should have. -/
abbrev profile (q : Nat) (rounds : Bool) (ops : List Call) : Cost := Spec.Profile.run rounds (bnNumBytes q) {} (ops.map shape)

/-- **C70.**  For every curve order, both modes of the PRF, every sequence of calls and whatever the openings return: a connection that runs through has the profile
that the public lengths and the shares of BOB determine. -/
theorem C70_profile (hL : LibCost L) (q : Nat) (hq : bnNumBytes q < 2 ^ 56) (rounds : Bool) (ops : List Call) (hs : ∀ op ∈ ops, Small op) (hn : ops.length < 2 ^ 53)
    (O : Oracle) (x : List Out × ConnG) (t : Sess) (e : conn L q rounds ops O {} = .ok (x, t)) : costOf t.evs = profile q rounds ops :=
  ((io_run hL hq ops (s := {}) (by show 0 + _ < _; omega) ⟨HmacI.new rounds, Nat.zero_le _, rfl, rfl, rfl⟩ hs) O {} x t e).1.trans (zero_add _)

theorem evCost_erase (e : Ev) : (evCost e).ands = (evCost (erase e)).ands ∧ (evCost e).frees = (evCost (erase e)).frees := by
  cases e with
  | feed p bits => cases p <;> exact ⟨rfl, rfl⟩
  | _ => exact ⟨rfl, rfl⟩

/-- The number of bits of each exchange. -/
def size : Item → Party × Nat × Bool
  | .feed p n => (p, n, false)
  | .bob bits => (.bob, bits.length, false)
  | .open p n => (p, n, true)

theorem evCost_size (e : Ev) : (evCost e).io.map size = (evCost (erase e)).io.map size := by
  cases e with
  | feed p bits => cases p <;> simp [evCost, erase, size, Spec.Profile.feed, Spec.Profile.feedBob]
  | _ => rfl

theorem costOf_same : ∀ (x y : List Ev), x.map erase = y.map erase →
    (costOf x).ands = (costOf y).ands ∧ (costOf x).frees = (costOf y).frees ∧ (costOf x).io.map size = (costOf y).io.map size
  | [], [], _ => ⟨rfl, rfl, rfl⟩
  | [], _ :: _, h => nomatch h
  | _ :: _, [], h => nomatch h
  | a :: x, b :: y, h => by
    obtain ⟨h1, h2⟩ := List.cons.inj h
    obtain ⟨i1, i2, i3⟩ := costOf_same x y h2
    obtain ⟨a1, a2⟩ := evCost_erase a
    obtain ⟨b1, b2⟩ := evCost_erase b
    refine ⟨?_, ?_, ?_⟩
    · show (costOf x).ands + (evCost a).ands = (costOf y).ands + (evCost b).ands
      rw [i1, a1, b1, h1]
    · show (costOf x).frees + (evCost a).frees = (costOf y).frees + (evCost b).frees
      rw [i2, a2, b2, h1]
    · show ((costOf x).io ++ (evCost a).io).map size = ((costOf y).io ++ (evCost b).io).map size
      rw [List.map_append, List.map_append, i3, evCost_size a, evCost_size b, h1]

/-- **C70, offline phase.**  The offline phase of such a connection succeeds and has the same number of gates and the same exchanges, each of the same size. -/
theorem C70_offline (hL : LibCost L) (hO : LibObl L) (q : Nat) (hq : bnNumBytes q < 2 ^ 56) (rounds : Bool) (ops : List Call) (ops' : List OffCall)
    (hm : List.Forall₂ (Matches rounds) ops ops') (hs : ∀ op ∈ ops, Small op) (hn : ops.length < 2 ^ 53) (O O' : Oracle) (x : List Out × ConnG) (t : Sess)
    (e : conn L q rounds ops O {} = .ok (x, t)) :
    ∃ y t', ConnOff.run L { hs := { q := q, roundsOpt := rounds } } ops' O' {} = .ok (y, t') ∧ (costOf t'.evs).ands = (profile q rounds ops).ands
      ∧ (costOf t'.evs).frees = (profile q rounds ops).frees ∧ (costOf t'.evs).io.map size = (profile q rounds ops).io.map size := by
  obtain ⟨y, t', e', hsame⟩ := Verif.Props.Offline.C44_connection hO q rounds ops ops' hm O O' t x e
  have hc := C70_profile hL q hq rounds ops hs hn O x t e
  obtain ⟨h1, h2, h3⟩ := costOf_same _ _ hsame.1
  exact ⟨y, t', e', by rw [← hc, h1], by rw [← hc, h2], by rw [← hc, h3]⟩

/-! ### The program handed to the backend -/

/-- The openings of a program: to whom and how many bits. -/
def openings : List Op → List (Party × Nat)
  | [] => []
  | .reveal p ws :: ops => (p, ws.length) :: openings ops
  | _ :: ops => openings ops

/-- The bits BOB feeds. -/
def fedByBob : List Op → List Bool
  | [] => []
  | .inB b :: ops => b :: fedByBob ops
  | _ :: ops => fedByBob ops

/-- The same from a profile. -/
def shownBy : List Item → List (Party × Nat)
  | [] => []
  | .open p n :: l => (p, n) :: shownBy l
  | _ :: l => shownBy l

def bobsBits : List Item → List Bool
  | [] => []
  | .bob b :: l => b ++ bobsBits l
  | _ :: l => bobsBits l

/-- Number of bits fed by all. -/
def bitsIn : List Item → Nat
  | [] => 0
  | .feed _ n :: l => n + bitsIn l
  | .bob b :: l => b.length + bitsIn l
  | .open _ _ :: l => bitsIn l

theorem openings_append : ∀ x y : List Op, openings (x ++ y) = openings x ++ openings y
  | [], _ => rfl
  | op :: x, y => by cases op <;> simp [openings, openings_append x y]

theorem fedByBob_append : ∀ x y : List Op, fedByBob (x ++ y) = fedByBob x ++ fedByBob y
  | [], _ => rfl
  | op :: x, y => by cases op <;> simp [fedByBob, fedByBob_append x y]

theorem ands_append' : ∀ x y : List Op, ands (x ++ y) = ands x + ands y
  | [], y => (Nat.zero_add _).symm
  | op :: x, y => by cases op <;> simp only [List.cons_append, ands, ands_append' x y, Nat.add_right_comm]

theorem wires_append : ∀ x y : List Op, wires (x ++ y) = wires x + wires y
  | [], y => (Nat.zero_add _).symm
  | op :: x, y => by cases op <;> simp only [List.cons_append, wires, wires_append x y, Nat.add_right_comm]

theorem shownBy_append : ∀ x y : List Item, shownBy (x ++ y) = shownBy x ++ shownBy y
  | [], _ => rfl
  | i :: x, y => by cases i <;> simp [shownBy, shownBy_append x y]

theorem bobsBits_append : ∀ x y : List Item, bobsBits (x ++ y) = bobsBits x ++ bobsBits y
  | [], _ => rfl
  | i :: x, y => by cases i <;> simp [bobsBits, bobsBits_append x y]

theorem bitsIn_append : ∀ x y : List Item, bitsIn (x ++ y) = bitsIn x + bitsIn y
  | [], y => (Nat.zero_add _).symm
  | i :: x, y => by cases i <;> simp only [List.cons_append, bitsIn, bitsIn_append x y] <;> omega

theorem ins_facts (f : Bool → Op) (hf : ∀ b, f b = .inA b ∨ f b = .pub b) : ∀ bits : List Bool,
    openings (bits.map f) = [] ∧ fedByBob (bits.map f) = [] ∧ ands (bits.map f) = 0 ∧ wires (bits.map f) = bits.length
  | [] => ⟨rfl, rfl, rfl, rfl⟩
  | b :: bits => by
    obtain ⟨h1, h2, h3, h4⟩ := ins_facts f hf bits
    rcases hf b with h | h <;> rw [List.map_cons, h] <;> exact ⟨h1, h2, h3, by simp [wires, h4]⟩

theorem inB_facts : ∀ bits : List Bool,
    openings (bits.map .inB) = [] ∧ fedByBob (bits.map .inB) = bits ∧ ands (bits.map .inB) = 0 ∧ wires (bits.map .inB) = bits.length
  | [] => ⟨rfl, rfl, rfl, rfl⟩
  | b :: bits => by
    obtain ⟨h1, h2, h3, h4⟩ := inB_facts bits
    exact ⟨h1, by rw [List.map_cons, fedByBob, h2], h3, by simp [wires, h4]⟩

theorem ev_facts (e : Ev) : openings (evOps e) = shownBy (evCost e).io ∧ fedByBob (evOps e) = bobsBits (evCost e).io ∧ ands (evOps e) = (evCost e).ands
    ∧ wires (evOps e) = bitsIn (evCost e).io + (evCost e).ands + (evCost e).frees := by
  cases e with
  | feed p bits =>
    cases p with
    | alice => exact ins_facts _ (fun b => .inl rfl) bits
    | pub => exact ins_facts _ (fun b => .inr rfl) bits
    | bob =>
      obtain ⟨h1, h2, h3, h4⟩ := inB_facts bits
      exact ⟨h1, h2.trans (List.append_nil _).symm, h3, h4⟩
  | reveal p ws => exact ⟨by show [(p, (ws.map wireNo).length)] = _; rw [List.length_map]; rfl, rfl, rfl, rfl⟩
  | _ => exact ⟨rfl, rfl, rfl, rfl⟩

theorem evs_facts : ∀ evs : List Ev, openings (evs.reverse.flatMap evOps) = shownBy (costOf evs).io ∧ fedByBob (evs.reverse.flatMap evOps) = bobsBits (costOf evs).io
    ∧ ands (evs.reverse.flatMap evOps) = (costOf evs).ands ∧ wires (evs.reverse.flatMap evOps) = bitsIn (costOf evs).io + (costOf evs).ands + (costOf evs).frees
  | [] => ⟨rfl, rfl, rfl, rfl⟩
  | e :: evs => by
    obtain ⟨h1, h2, h3, h4⟩ := evs_facts evs
    obtain ⟨k1, k2, k3, k4⟩ := ev_facts e
    rw [List.reverse_cons, List.flatMap_append, List.flatMap_cons, List.flatMap_nil, List.append_nil]
    refine ⟨?_, ?_, ?_, ?_⟩
    · rw [openings_append, h1, k1]; exact (shownBy_append _ _).symm
    · rw [fedByBob_append, h2, k2]; exact (bobsBits_append _ _).symm
    · rw [ands_append', h3, k3]; rfl
    · rw [wires_append, h4, k4]
      show _ = bitsIn ((costOf evs).io ++ (evCost e).io) + ((costOf evs).ands + (evCost e).ands) + ((costOf evs).frees + (evCost e).frees)
      rw [bitsIn_append]; omega

/-- **C70, counts.**  The program handed to the backend has the openings, the inputs of BOB, the AND gates and (with the two constants) the wires of the profile. -/
theorem C70_counts (hL : LibCost L) (q : Nat) (hq : bnNumBytes q < 2 ^ 56) (rounds : Bool) (ops : List Call) (hs : ∀ op ∈ ops, Small op) (hn : ops.length < 2 ^ 53)
    (O : Oracle) (x : List Out × ConnG) (t : Sess) (e : conn L q rounds ops O {} = .ok (x, t)) :
    openings t.program = shownBy (profile q rounds ops).io ∧ fedByBob t.program = bobsBits (profile q rounds ops).io ∧ ands t.program = (profile q rounds ops).ands
      ∧ wires t.program = 2 + bitsIn (profile q rounds ops).io + (profile q rounds ops).ands + (profile q rounds ops).frees := by
  obtain ⟨h1, h2, h3, h4⟩ := evs_facts t.evs
  rw [C70_profile hL q hq rounds ops hs hn O x t e] at h1 h2 h3 h4
  unfold Sess.program
  exact ⟨h1, h2, h3, by rw [wires_append, h4, show wires [.pub false, .pub true] = 2 from rfl]; omega⟩

/-! ### Openings and inputs in closed form -/

/-- What a call opens, to both parties.  With the rounds of the PRF inside the computation only finished messages and records that are not secret; otherwise also the inner
hash of a new HMAC key and A(i) for every block. -/
def shown (rounds fresh : Bool) : Call → List (Party × Nat)
  | .masterKey .. | .extendedMasterKey .. | .expansionKeys .. => if rounds then [] else [(.pub, 256), (.pub, 256), (.pub, 256)]
  | .clientFinished .. | .serverFinished .. => (if rounds then [] else if fresh then [(.pub, 256), (.pub, 256)] else [(.pub, 256)]) ++ [(.pub, 96)]
  | .newAead .. => []
  | .encrypt _ _ _ n secret | .decrypt _ _ _ n secret => if secret then [] else [(.pub, 8 * n)]

/-- Whether the HMAC key is still unused after a call. -/
def freshAfter (fresh : Bool) : Call → Bool
  | .newAead .. | .encrypt .. | .decrypt .. => fresh
  | _ => false

def shownAll (rounds : Bool) : Bool → List Call → List (Party × Nat)
  | _, [] => []
  | fresh, op :: ops => shown rounds fresh op ++ shownAll rounds (freshAfter fresh op) ops

theorem shownBy_nsmul {c : Cost} (h : shownBy c.io = []) (n : Nat) : shownBy (n • c).io = [] := by
  induction n with
  | zero => rw [zero_nsmul]; rfl
  | succ n ih => rw [succ_nsmul]; show shownBy ((n • c).io ++ c.io) = []; rw [shownBy_append, ih, h]; rfl

theorem bobsBits_nsmul {c : Cost} (h : bobsBits c.io = []) (n : Nat) : bobsBits (n • c).io = [] := by
  induction n with
  | zero => rw [zero_nsmul]; rfl
  | succ n ih => rw [succ_nsmul]; show bobsBits ((n • c).io ++ c.io) = []; rw [bobsBits_append, ih, h]; rfl

theorem shown_add (a b : Cost) : shownBy (a + b).io = shownBy a.io ++ shownBy b.io := shownBy_append _ _
theorem bob_add (a b : Cost) : bobsBits (a + b).io = bobsBits a.io ++ bobsBits b.io := bobsBits_append _ _

theorem shown_hmacKey (n : Nat) : shownBy (Spec.Profile.hmacKey n).io = [] := by
  unfold Spec.Profile.hmacKey
  rw [shown_add]
  split
  · rw [shownBy_nsmul rfl]; rfl
  · rfl

theorem bob_hmacKey (n : Nat) : bobsBits (Spec.Profile.hmacKey n).io = [] := by
  unfold Spec.Profile.hmacKey
  rw [bob_add]
  split
  · rw [bobsBits_nsmul rfl]; rfl
  · rfl

theorem shown_secret (pad seed : Nat) : ∀ (n : Nat) (fr : Bool) (a : Nat), shownBy (Spec.Profile.blocksSecret pad seed n fr a).io = []
  | 0, _, _ => rfl
  | n + 1, fr, a => by
    unfold Spec.Profile.blocksSecret Spec.Profile.hmacSecret
    simp only [shown_add, shown_secret pad seed n, shownBy_nsmul (c := Spec.Profile.compress) rfl, List.append_nil]

theorem bob_secret (pad seed : Nat) : ∀ (n : Nat) (fr : Bool) (a : Nat), bobsBits (Spec.Profile.blocksSecret pad seed n fr a).io = []
  | 0, _, _ => rfl
  | n + 1, fr, a => by
    unfold Spec.Profile.blocksSecret Spec.Profile.hmacSecret
    simp only [bob_add, bob_secret pad seed n, bobsBits_nsmul (c := Spec.Profile.compress) rfl, List.append_nil]

theorem shown_hmacOpen (pad : Nat) (fr : Bool) : shownBy (Spec.Profile.hmacOpen pad fr).io = if fr then [(.pub, 256)] else [] := by
  unfold Spec.Profile.hmacOpen
  rw [shown_add, shown_add, shownBy_nsmul (c := Spec.Profile.compress) rfl, shownBy_nsmul (c := Spec.Profile.feed .alice 32) rfl]
  cases fr <;> rfl

theorem bob_hmacOpen (pad : Nat) (fr : Bool) : bobsBits (Spec.Profile.hmacOpen pad fr).io = [] := by
  unfold Spec.Profile.hmacOpen
  rw [bob_add, bob_add, bobsBits_nsmul (c := Spec.Profile.compress) rfl, bobsBits_nsmul (c := Spec.Profile.feed .alice 32) rfl]
  cases fr <;> rfl

theorem bob_open (pad : Nat) : ∀ (n : Nat) (fr : Bool), bobsBits (Spec.Profile.blocksOpen pad n fr).io = []
  | 0, _ => rfl
  | n + 1, fr => by
    unfold Spec.Profile.blocksOpen
    rw [bob_add, bob_add, bob_add, bob_hmacOpen, bob_hmacOpen, bob_open pad n]; rfl

theorem bob_prf (rounds : Bool) (pad : Nat) (fr : Bool) (n len : Nat) : bobsBits (Spec.Profile.prf rounds pad fr n len).io = [] := by
  unfold Spec.Profile.prf
  cases rounds
  · exact bob_open pad n fr
  · rw [if_pos rfl, bob_add, bob_secret]; rfl

theorem shown_prf2 (rounds : Bool) (len : Nat) : shownBy (Spec.Profile.prf rounds 512 true 2 len).io = if rounds then [] else [(.pub, 256), (.pub, 256), (.pub, 256)] := by
  unfold Spec.Profile.prf
  cases rounds
  · rw [if_neg (by decide), if_neg (by decide)]
    simp only [Spec.Profile.blocksOpen, shown_add, shown_hmacOpen]
    rfl
  · rw [if_pos rfl, if_pos rfl, shown_add, shown_secret]; rfl

theorem shown_prf1 (rounds : Bool) (pad : Nat) (fr : Bool) (len : Nat) : shownBy (Spec.Profile.prf rounds pad fr 1 len).io
    = if rounds then [] else if fr then [(.pub, 256), (.pub, 256)] else [(.pub, 256)] := by
  unfold Spec.Profile.prf
  cases rounds
  · rw [if_neg (by decide), if_neg (by decide)]
    simp only [Spec.Profile.blocksOpen, shown_add, shown_hmacOpen]
    cases fr <;> rfl
  · rw [if_pos rfl, if_pos rfl, shown_add, shown_secret]; rfl

theorem shown_record (n : Nat) (sec : Bool) : shownBy (Spec.Profile.record n sec).io = if sec then [] else [(.pub, 8 * n)] := by
  unfold Spec.Profile.record
  rw [shown_add, shown_add, shownBy_nsmul rfl]
  cases sec <;> rfl

theorem bob_record (n : Nat) (sec : Bool) : bobsBits (Spec.Profile.record n sec).io = [] := by
  unfold Spec.Profile.record
  rw [bob_add, bob_add, bobsBits_nsmul rfl]
  cases sec <;> rfl

theorem shown_step (rounds : Bool) (q : Nat) (s : Spec.Profile.State) (op : Call) :
    shownBy (Spec.Profile.step rounds q s (shape op)).1.io = shown rounds s.fresh op ∧ (Spec.Profile.step rounds q s (shape op)).2.fresh = freshAfter s.fresh op := by
  cases op with
  | masterKey g a b rc rs =>
    refine ⟨?_, rfl⟩
    show shownBy (Spec.Profile.feed _ _ + Spec.Profile.feedBob _ + Spec.Profile.addmod q + Spec.Profile.hmacKey _ + Spec.Profile.prf _ _ _ _ _).io = _
    rw [shown_add, shown_add, shown_prf2, shown_hmacKey]; rfl
  | extendedMasterKey g a b sh =>
    refine ⟨?_, rfl⟩
    show shownBy (Spec.Profile.feed _ _ + Spec.Profile.feedBob _ + Spec.Profile.addmod q + Spec.Profile.hmacKey _ + Spec.Profile.prf _ _ _ _ _).io = _
    rw [shown_add, shown_add, shown_prf2, shown_hmacKey]; rfl
  | expansionKeys g rc rs =>
    refine ⟨?_, rfl⟩
    show shownBy (Spec.Profile.hmacKey _ + Spec.Profile.prf _ _ _ _ _).io = _
    rw [shown_add, shown_prf2, shown_hmacKey]; rfl
  | clientFinished g l t =>
    refine ⟨?_, rfl⟩
    show shownBy (Spec.Profile.prf _ _ _ _ _ + Spec.Profile.opens _ _).io = _
    rw [shown_add, shown_prf1]; rfl
  | serverFinished g l t =>
    refine ⟨?_, rfl⟩
    show shownBy (Spec.Profile.prf _ _ _ _ _ + Spec.Profile.opens _ _).io = _
    rw [shown_add, shown_prf1]; rfl
  | newAead j c => exact ⟨rfl, rfl⟩
  | encrypt j c iv n sec => exact ⟨shown_record n sec, rfl⟩
  | decrypt j c iv n sec => exact ⟨shown_record n sec, rfl⟩

theorem shown_run (rounds : Bool) (q : Nat) : ∀ (ops : List Call) (s : Spec.Profile.State),
    shownBy (Spec.Profile.run rounds q s (ops.map shape)).io = shownAll rounds s.fresh ops
  | [], _ => rfl
  | op :: ops, s => by
    rw [List.map_cons]
    unfold Spec.Profile.run shownAll
    rw [shown_add, shown_run rounds q ops, (shown_step rounds q s op).1, (shown_step rounds q s op).2]

/-- **C70, openings.**  A connection opens exactly what `shown` lists, call by call and in this order, always to both parties. -/
theorem C70_openings (hL : LibCost L) (q : Nat) (hq : bnNumBytes q < 2 ^ 56) (rounds : Bool) (ops : List Call) (hs : ∀ op ∈ ops, Small op) (hn : ops.length < 2 ^ 53)
    (O : Oracle) (x : List Out × ConnG) (t : Sess) (e : conn L q rounds ops O {} = .ok (x, t)) : openings t.program = shownAll rounds true ops :=
  (C70_counts hL q hq rounds ops hs hn O x t e).1.trans (shown_run rounds _ ops {})

/-- The share BOB feeds in a call, as bits. -/
def shareBits (q : Nat) : Call → List Bool
  | .masterKey _ _ b _ _ => Spec.Profile.bits (8 * bnNumBytes q) b
  | .extendedMasterKey _ _ b _ => Spec.Profile.bits (8 * bnNumBytes q) b
  | _ => []

theorem bob_step (rounds : Bool) (q : Nat) (s : Spec.Profile.State) (op : Call) :
    bobsBits (Spec.Profile.step rounds (bnNumBytes q) s (shape op)).1.io = shareBits q op := by
  cases op with
  | masterKey g a b rc rs =>
    show bobsBits (Spec.Profile.feed _ _ + Spec.Profile.feedBob _ + Spec.Profile.addmod _ + Spec.Profile.hmacKey _ + Spec.Profile.prf _ _ _ _ _).io = _
    rw [bob_add, bob_add, bob_prf, bob_hmacKey, List.append_nil, List.append_nil]
    exact List.append_nil _
  | extendedMasterKey g a b sh =>
    show bobsBits (Spec.Profile.feed _ _ + Spec.Profile.feedBob _ + Spec.Profile.addmod _ + Spec.Profile.hmacKey _ + Spec.Profile.prf _ _ _ _ _).io = _
    rw [bob_add, bob_add, bob_prf, bob_hmacKey, List.append_nil, List.append_nil]
    exact List.append_nil _
  | expansionKeys g rc rs =>
    show bobsBits (Spec.Profile.hmacKey _ + Spec.Profile.prf _ _ _ _ _).io = _
    rw [bob_add, bob_prf, bob_hmacKey]; rfl
  | clientFinished g l t =>
    show bobsBits (Spec.Profile.prf _ _ _ _ _ + Spec.Profile.opens _ _).io = _
    rw [bob_add, bob_prf]; rfl
  | serverFinished g l t =>
    show bobsBits (Spec.Profile.prf _ _ _ _ _ + Spec.Profile.opens _ _).io = _
    rw [bob_add, bob_prf]; rfl
  | newAead j c => rfl
  | encrypt j c iv n sec => exact bob_record n sec
  | decrypt j c iv n sec => exact bob_record n sec

theorem bob_run (rounds : Bool) (q : Nat) : ∀ (ops : List Call) (s : Spec.Profile.State),
    bobsBits (Spec.Profile.run rounds (bnNumBytes q) s (ops.map shape)).io = ops.flatMap (shareBits q)
  | [], _ => rfl
  | op :: ops, s => by
    rw [List.map_cons, List.flatMap_cons]
    unfold Spec.Profile.run
    rw [bob_add, bob_run rounds q ops, bob_step]

/-- **C70, inputs of BOB.**  All BOB feeds in a connection is its share of the pre-master secret, once per derivation of a master secret. -/
theorem C70_bob (hL : LibCost L) (q : Nat) (hq : bnNumBytes q < 2 ^ 56) (rounds : Bool) (ops : List Call) (hs : ∀ op ∈ ops, Small op) (hn : ops.length < 2 ^ 53)
    (O : Oracle) (x : List Out × ConnG) (t : Sess) (e : conn L q rounds ops O {} = .ok (x, t)) : fedByBob t.program = ops.flatMap (shareBits q) :=
  (C70_counts hL q hq rounds ops hs hn O x t e).2.1.trans (bob_run rounds q ops {})

/-- **C70, members.**  The members of `Record` open nothing; the members of `HandShake` for the encrypted finished messages open their key stream; each offline member fits. -/
theorem C70_members (j : Nat → Nat → Wire) (j' : Nat → Nat → Wire) (rounds fresh c : Bool) (iv : List Byte) (n : Nat) :
    shown rounds fresh ((Member.recordEncrypt c iv n).call j) = [] ∧ shown rounds fresh ((Member.recordDecrypt c iv n).call j) = []
    ∧ shown rounds fresh ((Member.encryptClientFinished c iv n).call j) = [(.pub, 8 * n)] ∧ shown rounds fresh ((Member.decryptServerFinished c iv n).call j) = [(.pub, 8 * n)]
    ∧ shown rounds fresh ((Member.decryptAndCheckServerFinished c iv).call j) = [(.pub, 96)]
    ∧ Matches rounds ((Member.recordEncrypt c iv n).call j) ((OffMember.recordEncrypt c n).call j')
    ∧ Matches rounds ((Member.recordDecrypt c iv n).call j) ((OffMember.recordDecrypt c n).call j')
    ∧ Matches rounds ((Member.encryptClientFinished c iv n).call j) ((OffMember.encryptClientFinished c n).call j')
    ∧ Matches rounds ((Member.decryptServerFinished c iv n).call j) ((OffMember.decryptServerFinished c n).call j')
    ∧ Matches rounds ((Member.decryptAndCheckServerFinished c iv).call j) ((OffMember.decryptServerFinished c 12).call j') :=
  ⟨rfl, rfl, rfl, rfl, rfl, ⟨rfl, rfl, rfl⟩, ⟨rfl, rfl, rfl⟩, ⟨rfl, rfl, rfl⟩, ⟨rfl, rfl, rfl⟩, ⟨rfl, rfl, rfl⟩⟩

/-! ### Cases -/

/-- The finished messages, an opened and a secret record after the derivation, in both modes. -/
def exOps : List Call := Garbled.exStart :: .expansionKeys (fun _ => List.replicate 64 8) (List.replicate 32 4) (List.replicate 32 5) :: Garbled.exRest

theorem exOps_small : ∀ op ∈ exOps, Small op := by
  intro op h
  simp only [exOps, Garbled.exStart, Garbled.exRest, List.mem_cons, List.not_mem_nil, or_false] at h
  rcases h with rfl | rfl | rfl | rfl | rfl | rfl | rfl | rfl <;> first | trivial | (show _ < _; decide +kernel)

theorem exOps_run (rounds : Bool) : ∃ x t, conn empLib 251 rounds exOps plain {} = .ok (x, t) := by
  obtain ⟨x, t, _, run, _⟩ := Garbled.ref_connection Verif.Lemmas.Gate.empLib_sound 251 rounds (by decide +kernel) _ Garbled.exStart Garbled.exStart_ok
    (fun _ => List.replicate 64 8) (fun _ => by simp) (List.replicate 32 4) (List.replicate 32 5) (by simp) Garbled.exRest Garbled.exRest_ok (by decide)
    Verif.Lemmas.Gate.valid_empty
  exact ⟨x, t, run plain (Verif.Lemmas.Gate.agree_plain _ _)⟩

/-- With the rounds inside, the connection opens the two finished messages and the record that is not secret. -/
example : ∃ x t, conn empLib 251 true exOps plain {} = .ok (x, t) ∧ openings t.program = [(.pub, 96), (.pub, 96), (.pub, 160)]
    ∧ fedByBob t.program = [false, false, true, false, false, true, true, false] := by
  obtain ⟨x, t, e⟩ := exOps_run true
  exact ⟨x, t, e, C70_openings empLib_cost 251 (by decide +kernel) true exOps exOps_small (by decide) plain x t e,
    (C70_bob empLib_cost 251 (by decide +kernel) true exOps exOps_small (by decide) plain x t e).trans (by decide +kernel)⟩

/-- Otherwise the inner hash of each key and every A(i) as well. -/
example : ∃ x t, conn empLib 251 false exOps plain {} = .ok (x, t) ∧ openings t.program
    = List.replicate 6 (.pub, 256) ++ [(.pub, 256), (.pub, 96), (.pub, 256), (.pub, 96), (.pub, 160)] := by
  obtain ⟨x, t, e⟩ := exOps_run false
  exact ⟨x, t, e, C70_openings empLib_cost 251 (by decide +kernel) false exOps exOps_small (by decide) plain x t e⟩

/-- Its number of AND gates in the two modes. -/
example : (profile 251 true exOps).ands = 865949 ∧ (profile 251 false exOps).ands = 412029 := by decide +kernel

end Verif.Props.Profile
