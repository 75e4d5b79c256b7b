import Verif.Lemmas.OfflineRel
import Verif.Props.OfflineGC

/-!
The offline classes issue the operations of the online classes (C44).

`Same t t'` says that the operations issued so far are equal up to the values of the inputs of the two parties: the same inputs by the
same party and of the same length, the same gates on the same wires, the same openings to the same party, in the same order.  The
theorems hold for all values returned by openings on the two sides (`O`, `O'`), and for all contents of indeterminate memory.
-/

namespace Verif.Props.Offline
open Verif.Model Verif.Model.Gate Verif.Lemmas.Gate
open Verif.Spec Verif.Spec.Circuit
open Verif.Props (SameShape RevealOk C18_offline_online)

/-- A sequence of calls on an object. -/
def runAll {σ ι ω : Type} (step : σ → ι → M (ω × σ)) : σ → List ι → M (List ω × σ)
  | s, [] => pure ([], s)
  | s, i :: is => do
    let (o, s) ← step s i
    let (os, s) ← runAll step s is
    pure (o :: os, s)

theorem rel_runAll {σ τ ι κ ω χ : Type} {f : σ → ι → M (ω × σ)} {g : τ → κ → M (χ × τ)} {R : σ → τ → Prop} {C : ι → κ → Prop}
    {Q : ω → χ → Prop} (h : ∀ s t i k, R s t → C i k → Rel (fun p q => Q p.1 q.1 ∧ R p.2 q.2) (f s i) (g t k)) :
    ∀ (is : List ι) (ks : List κ) {s : σ} {t : τ}, R s t → List.Forall₂ C is ks →
      Rel (fun p q => List.Forall₂ Q p.1 q.1 ∧ R p.2 q.2) (runAll f s is) (runAll g t ks)
  | [], [], _, _, r, _ => Rel.pure ⟨.nil, r⟩
  | [], _ :: _, _, _, _, hc => nomatch hc
  | _ :: _, [], _, _, _, hc => nomatch hc
  | i :: is, k :: ks, s, t, r, hc => by
    rw [List.forall₂_cons] at hc
    unfold runAll
    refine Rel.bind (h s t i k r hc.1) ?_
    rintro ⟨o, s1⟩ ⟨o', t1⟩ ⟨q, r1⟩
    refine Rel.bind (rel_runAll h is ks r1 hc.2) ?_
    rintro ⟨os, s2⟩ ⟨os', t2⟩ ⟨qs, r2⟩
    exact Rel.pure ⟨.cons q qs, r2⟩

variable {L : Lib} (hL : LibObl L)
include hL

/-! ### SHA-256 -/

/-- The calls on a `SHA256` object. -/
inductive ShaCall where
  | digest (input : SInt) (reuseOut : Bool)
  | optDigest (garbage : List Byte) (sec : SInt) (pub : List Byte) (reuseIn : Bool)
  | optRoundsDigest (input : SInt) (reuseIn : Bool)
  | refresh

/-- The calls on a `SHA256Offline` object. -/
inductive ShaOffCall where
  | digest (input : SInt) (reuseOut : Bool)
  | optDigest (sec : SInt) (reuseIn : Bool)
  | optRoundsDigest (input : SInt) (reuseIn : Bool)
  | refresh

def shaStep (L : Lib) (s : ShaG) : ShaCall → M (List SInt × ShaG)
  | .digest x ro => s.digest L x ro
  | .optDigest g x p ri => do let (_, s) ← s.optDigest L g x p ri; pure ([], s)
  | .optRoundsDigest x ri => s.optRoundsDigest L x ri
  | .refresh => pure ([], s.refresh)

def shaOffStep (L : Lib) (s : ShaOff) : ShaOffCall → M (List SInt × ShaOff)
  | .digest x ro => s.digest L x ro
  | .optDigest x ri => do let s ← s.optDigest L x ri; pure ([], s)
  | .optRoundsDigest x ri => s.optRoundsDigest L x ri
  | .refresh => pure ([], s.refresh)

/-- Corresponding calls: the same secret arguments and flags; the public data is arbitrary. -/
def ShaMatch : ShaCall → ShaOffCall → Prop
  | .digest x ro, .digest x' ro' => x = x' ∧ ro = ro'
  | .optDigest _ x _ ri, .optDigest x' ri' => x = x' ∧ ri = ri'
  | .optRoundsDigest x ri, .optRoundsDigest x' ri' => x = x' ∧ ri = ri'
  | .refresh, .refresh => True
  | _, _ => False

/-- **C44**, SHA-256: for every call sequence, whenever the online object succeeds, the offline object succeeds, issues the same
operations, and returns the same wires. -/
theorem C44_sha (ops : List ShaCall) (ops' : List ShaOffCall) (hm : List.Forall₂ ShaMatch ops ops') (O O' : Oracle) (s s' t : Sess)
    (hs : Same s s') (ds : List (List SInt)) (x : ShaG) (e : runAll (shaStep L) {} ops O s = .ok ((ds, x), t)) :
    ∃ y t', runAll (shaOffStep L) {} ops' O' s' = .ok ((ds, y), t') ∧ Same t t' := by
  have step : ∀ a b i k, ShaRel a b → ShaMatch i k → Rel (fun p q => p.1 = q.1 ∧ ShaRel p.2 q.2) (shaStep L a i) (shaOffStep L b k) := by
    intro a b i k r h
    cases i <;> cases k <;> simp only [ShaMatch] at h
    case digest.digest => obtain ⟨rfl, rfl⟩ := h; exact rel_digest hL r _ _
    case optRoundsDigest.optRoundsDigest => obtain ⟨rfl, rfl⟩ := h; exact rel_roundsDigest hL r _ _
    case refresh.refresh => exact Rel.pure ⟨rfl, r.refresh⟩
    case optDigest.optDigest =>
      obtain ⟨rfl, rfl⟩ := h
      refine Rel.bind (rel_optDigest hL r _ _ _ _) ?_
      rintro ⟨d, s1⟩ t1 ⟨_, r1⟩
      exact Rel.pure ⟨rfl, r1⟩
  obtain ⟨⟨ds', y⟩, t', e', ⟨hd, _⟩, hs'⟩ := rel_runAll step ops ops' ShaRel.new hm O O' s s' hs _ _ e
  rw [List.forall₂_eq_eq_eq] at hd
  dsimp only at hd
  subst hd
  exact ⟨y, t', e', hs'⟩

omit hL in
/-- The hypotheses are met: hashing a byte with the textbook adder succeeds. -/
example (O' : Oracle) : ∃ t x ds y t', runAll (shaStep empLib) {} [.refresh, .digest (pubInt 8 0) true] (fun _ _ _ => []) {} = .ok ((ds, x), t)
    ∧ runAll (shaOffStep empLib) {} [.refresh, .digest (pubInt 8 0) true] O' {} = .ok ((ds, y), t') ∧ Same t t' := by
  have h : ∃ p, runAll (shaStep empLib) {} [.refresh, .digest (pubInt 8 0) true] (fun _ _ _ => []) {} = .ok p := by
    have hb : (match runAll (shaStep empLib) {} [.refresh, .digest (pubInt 8 0) true] (fun _ _ _ => []) {} with
      | .ok _ => true | .error _ => false) = true := by decide +kernel
    revert hb
    cases runAll (shaStep empLib) {} [.refresh, .digest (pubInt 8 0) true] (fun _ _ _ => []) {} with
    | ok p => intro _; exact ⟨p, rfl⟩
    | error e => intro hb; cases hb
  obtain ⟨⟨⟨ds, x⟩, t⟩, e⟩ := h
  obtain ⟨y, t', e', hs⟩ := C44_sha empLib_obl [.refresh, .digest (pubInt 8 0) true] [.refresh, .digest (pubInt 8 0) true] (.cons trivial (.cons ⟨rfl, rfl⟩ .nil)) _ O' {} {} t
    ⟨rfl, rfl⟩ ds x e
  exact ⟨t, x, ds, y, t', e, e', hs⟩

/-! ### HMAC -/

/-- The calls on an `HMAC_SHA256` object that has an offline counterpart. -/
inductive HmacCall where
  | init (key : SInt)
  | optHmac (garbage msg : List Byte) (reuseIn reuseOut : Bool)
  | optRoundsHmac (msg : SInt) (reuseIn reuseOut : Bool)

inductive HmacOffCall where
  | init (key : SInt)
  | optHmac (u : Nat → BitVec 32) (reuseIn reuseOut : Bool)
  | optRoundsHmac (msg : SInt) (reuseIn reuseOut : Bool)

def hmacStep (L : Lib) (m : HmacG) : HmacCall → M (List SInt × HmacG)
  | .init k => do let m ← m.init L k; pure ([], m)
  | .optHmac g x ri ro => m.optHmac L g x ri ro
  | .optRoundsHmac x ri ro => m.optRoundsHmac L x ri ro

def hmacOffStep (L : Lib) (m : HmacOff) : HmacOffCall → M (List SInt × HmacOff)
  | .init k => do let m ← m.init L k; pure ([], m)
  | .optHmac u ri ro => m.optHmac L u ri ro
  | .optRoundsHmac x ri ro => m.optRoundsHmac L x ri ro

/-- Corresponding calls: the same secret arguments and flags; public messages of any lengths. -/
def HmacMatch : HmacCall → HmacOffCall → Prop
  | .init k, .init k' => k = k'
  | .optHmac _ _ ri ro, .optHmac _ ri' ro' => ri = ri' ∧ ro = ro'
  | .optRoundsHmac x ri ro, .optRoundsHmac x' ri' ro' => x = x' ∧ ri = ri' ∧ ro = ro'
  | _, _ => False

/-- **C44**, HMAC. -/
theorem C44_hmac (ops : List HmacCall) (ops' : List HmacOffCall) (hm : List.Forall₂ HmacMatch ops ops') (O O' : Oracle) (s s' t : Sess)
    (hs : Same s s') (ds : List (List SInt)) (x : HmacG) (e : runAll (hmacStep L) {} ops O s = .ok ((ds, x), t)) :
    ∃ y t', runAll (hmacOffStep L) {} ops' O' s' = .ok ((ds, y), t') ∧ Same t t' := by
  have step : ∀ a b i k, HmacRel a b → HmacMatch i k →
      Rel (fun p q => p.1 = q.1 ∧ HmacRel p.2 q.2) (hmacStep L a i) (hmacOffStep L b k) := by
    intro a b i k r h
    cases i <;> cases k <;> simp only [HmacMatch] at h
    case init.init => subst h; exact Rel.bind (rel_init hL r _) fun _ _ r1 => Rel.pure ⟨rfl, r1⟩
    case optHmac.optHmac => obtain ⟨rfl, rfl⟩ := h; exact rel_optHmac hL r _ _ _ _ _
    case optRoundsHmac.optRoundsHmac => obtain ⟨rfl, rfl, rfl⟩ := h; exact rel_roundsHmac hL r _ _ _
  obtain ⟨⟨ds', y⟩, t', e', ⟨hd, _⟩, hs'⟩ := rel_runAll step ops ops' HmacRel.new hm O O' s s' hs _ _ e
  rw [List.forall₂_eq_eq_eq] at hd
  dsimp only at hd
  subst hd
  exact ⟨y, t', e', hs'⟩

/-! ### PRF -/

/-- The calls on a `PRF` object that has an offline counterpart; `res` is the content of the result on entry. -/
inductive PrfCall where
  | init (key : SInt)
  | optCompute (garbage : Nat → List Byte) (res : SInt) (bitlen : Nat) (label seed : List Byte) (reuseIn reuseOut : Bool)
  | optRoundsCompute (res : SInt) (bitlen : Nat) (label seed : List Byte) (reuseIn reuseOut : Bool)

inductive PrfOffCall where
  | init (key : SInt)
  | optCompute (u : Nat → Nat → BitVec 32) (res : SInt) (bitlen : Nat) (reuseIn reuseOut : Bool)
  | optRoundsCompute (res : SInt) (bitlen seedlen : Nat) (reuseIn reuseOut : Bool)

def prfStep (L : Lib) (m : HmacG) : PrfCall → M (SInt × HmacG)
  | .init k => do let m ← m.init L k; pure ([], m)
  | .optCompute g res n l x ri ro => optComputeG L m g res n l x ri ro
  | .optRoundsCompute res n l x ri ro => roundsComputeG L m res n l x ri ro

def prfOffStep (L : Lib) (m : HmacOff) : PrfOffCall → M (SInt × HmacOff)
  | .init k => do let m ← m.init L k; pure ([], m)
  | .optCompute u res n ri ro => offOptCompute L m u res n ri ro
  | .optRoundsCompute res n k ri ro => offRoundsCompute L m res n k ri ro

/-- Corresponding calls: equal output lengths and flags; the seed of `opt_rounds_compute` has the announced length, the seed of
`opt_compute` any length. -/
def PrfMatch : PrfCall → PrfOffCall → Prop
  | .init k, .init k' => k = k'
  | .optCompute _ res n _ _ ri ro, .optCompute _ res' n' ri' ro' => res = res' ∧ n = n' ∧ ri = ri' ∧ ro = ro'
  | .optRoundsCompute res n l x ri ro, .optRoundsCompute res' n' k ri' ro' =>
    res = res' ∧ n = n' ∧ l.length + x.length = k ∧ ri = ri' ∧ ro = ro'
  | _, _ => False

/-- **C44**, PRF. -/
theorem C44_prf (ops : List PrfCall) (ops' : List PrfOffCall) (hm : List.Forall₂ PrfMatch ops ops') (O O' : Oracle) (s s' t : Sess)
    (hs : Same s s') (ds : List SInt) (x : HmacG) (e : runAll (prfStep L) {} ops O s = .ok ((ds, x), t)) :
    ∃ y t', runAll (prfOffStep L) {} ops' O' s' = .ok ((ds, y), t') ∧ Same t t' := by
  have step : ∀ a b i k, HmacRel a b → PrfMatch i k →
      Rel (fun p q => p.1 = q.1 ∧ HmacRel p.2 q.2) (prfStep L a i) (prfOffStep L b k) := by
    intro a b i k r h
    cases i <;> cases k <;> simp only [PrfMatch] at h
    case init.init => subst h; exact Rel.bind (rel_init hL r _) fun _ _ r1 => Rel.pure ⟨rfl, r1⟩
    case optCompute.optCompute => obtain ⟨rfl, rfl, rfl, rfl⟩ := h; exact rel_optCompute hL r _ _ _ _ _ _ _ _
    case optRoundsCompute.optRoundsCompute => obtain ⟨rfl, rfl, h3, rfl, rfl⟩ := h; exact rel_roundsCompute hL r _ _ _ _ _ h3 _ _
  obtain ⟨⟨ds', y⟩, t', e', ⟨hd, _⟩, hs'⟩ := rel_runAll step ops ops' HmacRel.new hm O O' s s' hs _ _ e
  rw [List.forall₂_eq_eq_eq] at hd
  dsimp only at hd
  subst hd
  exact ⟨y, t', e', hs'⟩

/-! ### AEAD -/

/-- A record of the online phase: `n` is the length of the data. -/
structure AeadCall where
  enc : Bool
  junk : Nat → Nat → Wire
  iv : List Byte
  n : Nat
  secret : Bool

structure AeadOffCall where
  enc : Bool
  junk : Nat → Nat → Wire
  n : Nat
  secret : Bool

def aeadStep (L : Lib) (a : AeadG) (c : AeadCall) : M (Unit × AeadG) := do
  let (_, a) ← (if c.enc then a.encrypt L c.junk c.iv c.n c.secret else a.decrypt L c.junk c.iv c.n c.secret : M (StreamG × AeadG))
  pure ((), a)

def aeadOffStep (L : Lib) (a : AeadOff) (c : AeadOffCall) : M (Unit × AeadOff) := do
  let a ← if c.enc then a.encrypt L c.junk c.n c.secret else a.decrypt L c.junk c.n c.secret
  pure ((), a)

/-- Constructor, then records. -/
def aeadRun (L : Lib) (j : Nat → Nat → Wire) (key iv : SInt) (ops : List AeadCall) : M (List Unit × AeadG) := do
  let (_, a) ← AeadG.new j key iv
  runAll (aeadStep L) a ops

def aeadOffRun (L : Lib) (j : Nat → Nat → Wire) (key iv : SInt) (ops : List AeadOffCall) : M (List Unit × AeadOff) := do
  let a ← AeadOff.new j key iv
  runAll (aeadOffStep L) a ops

/-- **C44**, AEAD: for every key and every sequence of records with matching lengths and directions, whatever the explicit nonces. -/
theorem C44_aead (j j' : Nat → Nat → Wire) (key iv : SInt) (ops : List AeadCall) (ops' : List AeadOffCall)
    (hm : List.Forall₂ (fun c c' => c.enc = c'.enc ∧ c.n = c'.n ∧ c.secret = c'.secret) ops ops') (O O' : Oracle) (s s' t : Sess)
    (hs : Same s s') (x : List Unit × AeadG) (e : aeadRun L j key iv ops O s = .ok (x, t)) :
    ∃ y t', aeadOffRun L j' key iv ops' O' s' = .ok (y, t') ∧ Same t t' := by
  have step : ∀ (a : AeadG) (b : AeadOff) (c : AeadCall) (c' : AeadOffCall), AeadRel a b →
      (c.enc = c'.enc ∧ c.n = c'.n ∧ c.secret = c'.secret) →
      Rel (fun (p : Unit × AeadG) (q : Unit × AeadOff) => True ∧ AeadRel p.2 q.2) (aeadStep L a c) (aeadOffStep L b c') := by
    rintro a b ⟨en, j, iv, n, sec⟩ ⟨en', j', n', sec'⟩ r ⟨h1, h2, h3⟩
    dsimp only at h1 h2 h3
    subst h1 h2 h3
    unfold aeadStep aeadOffStep
    cases en
    · simp only [Bool.false_eq_true, if_false]
      refine Rel.bind (rel_decrypt hL r _ _ _ _ _) ?_
      rintro ⟨z, a⟩ b hr
      exact Rel.pure ⟨trivial, hr⟩
    · simp only [if_true]
      refine Rel.bind (rel_encrypt hL r _ _ _ _ _) ?_
      rintro ⟨z, a⟩ b hr
      exact Rel.pure ⟨trivial, hr⟩
  have all : Rel (fun (p : List Unit × AeadG) (q : List Unit × AeadOff) => AeadRel p.2 q.2) (aeadRun L j key iv ops)
      (aeadOffRun L j' key iv ops') := by
    unfold aeadRun aeadOffRun
    refine Rel.bind (rel_aeadNew _ _ _ _) ?_
    rintro ⟨z, a⟩ b hr
    exact (rel_runAll (Q := fun _ _ => True) step ops ops' hr hm).mono fun _ _ h => h.2
  obtain ⟨y, t', e', _, hs'⟩ := all O O' s s' hs x t e
  exact ⟨y, t', e', hs'⟩

/-! ### Handshake and connection -/

/-- **C44**, handshake and records: for every curve order `q`, both modes of the PRF, and every sequence of calls of the protocol
(key derivations, finished messages, record objects, records) with matching public lengths, whenever the online phase succeeds, the
offline phase succeeds and issues the same operations. -/
theorem C44_connection (q : Nat) (rounds : Bool) (ops : List Call) (ops' : List OffCall) (hm : List.Forall₂ (Matches rounds) ops ops')
    (O O' : Oracle) (t : Sess) (x : List Out × ConnG) (e : ConnG.run L { hs := { q := q, roundsOpt := rounds } } ops O {} = .ok (x, t)) :
    ∃ y t', ConnOff.run L { hs := { q := q, roundsOpt := rounds } } ops' O' {} = .ok (y, t') ∧ Same t t' := by
  have r : ConnRel { hs := { q := q, roundsOpt := rounds } } { hs := { q := q, roundsOpt := rounds } } :=
    ⟨⟨HmacRel.new, rfl, rfl, rfl, rfl, rfl, rfl, rfl⟩, trivial, trivial⟩
  obtain ⟨y, t', e', _, hs'⟩ := rel_run hL ops ops' r hm O O' {} {} ⟨rfl, rfl⟩ x t e
  exact ⟨y, t', e', hs'⟩

/-! ### Garbling -/

omit hL in
theorem map_sameA (x y : List Bool) (h : x.length = y.length) : List.Forall₂ SameShape (x.map Op.inA) (y.map Op.inA) := by
  induction x generalizing y with
  | nil => cases y with | nil => exact .nil | cons b y => cases h
  | cons a x ih => cases y with | nil => cases h | cons b y => exact .cons trivial (ih y (by simpa using h))

omit hL in
theorem map_sameB (x y : List Bool) (h : x.length = y.length) : List.Forall₂ SameShape (x.map Op.inB) (y.map Op.inB) := by
  induction x generalizing y with
  | nil => cases y with | nil => exact .nil | cons b y => cases h
  | cons a x ih => cases y with | nil => cases h | cons b y => exact .cons trivial (ih y (by simpa using h))

omit hL in
theorem same_refl (l : List Op) : List.Forall₂ SameShape l l := by
  induction l with
  | nil => exact .nil
  | cons a l ih => exact .cons (by cases a <;> simp [SameShape]) ih

omit hL in
theorem evOps_same (a b : Ev) (h : erase a = erase b) : List.Forall₂ SameShape (evOps a) (evOps b) := by
  have len : ∀ {n m : Nat}, List.replicate n false = List.replicate m false → n = m := fun h => by
    simpa using congrArg List.length h
  cases a with
  | feed p x =>
    cases b with
    | feed p' y =>
      cases p <;> cases p' <;> simp only [erase, Ev.feed.injEq, reduceCtorEq, false_and, true_and] at h
      · exact map_sameA _ _ (len h)
      · exact map_sameB _ _ (len h)
      · rw [h]; exact same_refl _
    | _ => cases p <;> simp [erase] at h
  | _ =>
    cases b with
    | feed p' y => cases p' <;> simp [erase] at h
    | _ => simp only [erase] at h; rw [h]; exact same_refl _

omit hL in
/-- Equal operations are programs of the same shape for the garbling backends. -/
theorem program_same {s t : Sess} (h : Same s t) : List.Forall₂ SameShape s.program t.program := by
  have key : ∀ x y : List Ev, x.map erase = y.map erase → List.Forall₂ SameShape (x.flatMap evOps) (y.flatMap evOps) := by
    intro x
    induction x with
    | nil => intro y h; cases y with | nil => exact .nil | cons => cases h
    | cons a x ih =>
      intro y h
      cases y with
      | nil => cases h
      | cons b y =>
        simp only [List.map_cons, List.cons.injEq] at h
        simp only [List.flatMap_cons]
        exact List.rel_append (evOps_same a b h.1) (ih y h.2)
  unfold Sess.program
  refine List.rel_append (same_refl _) (key _ _ ?_)
  rw [List.map_reverse, List.map_reverse, h.1]

/-- **C44** with C18: garble the offline calls, evaluate the online calls.  For every connection as in `C44_connection`, garbling the
operations of the offline phase succeeds, the online phase runs on the stored tables to its end, and every opening shows the plaintext value of
the online operations. -/
theorem C44_garbled (q : Nat) (rounds : Bool) (ops : List Call) (ops' : List OffCall) (hm : List.Forall₂ (Matches rounds) ops ops')
    (O O' : Oracle) (t : Sess) (x : List Out × ConnG) (e : ConnG.run L { hs := { q := q, roundsOpt := rounds } } ops O {} = .ok (x, t))
    (E : GC.Env) (d : Block) :
    ∃ y t' f os n', ConnOff.run L { hs := { q := q, roundsOpt := rounds } } ops' O' {} = .ok (y, t')
      ∧ GC.OffNet.run E { gen := { delta := GC.setDelta d } } t'.program = .ok f
      ∧ (GC.syncOnline f).run E t.program = .ok (os, n')
      ∧ List.Forall₂ RevealOk os (Circuit.opened [] t.program) := by
  obtain ⟨y, t', e', hs⟩ := C44_connection hL q rounds ops ops' hm O O' t x e
  have hs' : Same t' t := ⟨hs.1.symm, hs.2.symm⟩
  obtain ⟨f, os, n', h1, h2, h3, _⟩ := C18_offline_online E d _ _ (program_same hs')
  exact ⟨y, t', f, os, n', e', h1, h2, h3⟩

end Verif.Props.Offline
