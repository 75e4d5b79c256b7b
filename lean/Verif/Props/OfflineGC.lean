import Verif.Lemmas.GC
import Verif.Model.OfflineGC
import Verif.Props.GC

/-! C18: offline garbling, online evaluation. -/

namespace Verif.Props
open Verif.Model Verif.Model.GC Verif.Lemmas
open Verif.Spec.Circuit (Party Op)
open Verif.Spec

/-- Two operations are the same up to the values of the private inputs. -/
def SameShape : Op → Op → Prop
  | .inA _, .inA _ => True
  | .inB _, .inB _ => True
  | a, b => a = b

/-- The online state `n` replays the offline state `m`, which is on the way to the final offline state `f`;
`w` are the plain values. -/
structure Replay (E : Env) (f m : OffNet) (n : OnNet) (w : List Bool) : Prop where
  delta : lsb m.gen.delta = true
  ndelta : n.gen.delta = m.gen.delta
  gwires : n.gen.wires = m.gen.wires
  prg : n.gen.prgPos = m.gen.prgPos
  ggid : n.gen.gid = m.gen.gid
  egid : n.eva.gid = m.gen.gid
  olen : m.gen.outLabels.length = m.gen.gid
  glen : m.eva.gc.length = m.gen.gid * 2
  cnt : n.eva.revealCounter = m.eva.pubValues.length
  out : n.gen.outLabels = f.gen.outLabels
  gc : n.eva.gc = f.eva.gc
  pv : n.eva.pubValues = f.eva.pubValues
  toEva : n.toEva = []
  toGen : n.toGen = []
  off : m.toEva = []
  gw : m.gen.wires.length = w.length
  ew : n.eva.wires.length = w.length
  rel : ∀ i, n.eva.get E i = m.gen.get E i ^^^ sel (Circuit.get w i) m.gen.delta

/-- What was recorded so far stays. -/
structure Prefix (m f : OffNet) : Prop where
  out : m.gen.outLabels <+: f.gen.outLabels
  gc : m.eva.gc <+: f.eva.gc
  pv : m.eva.pubValues <+: f.eva.pubValues

theorem offRecvBits_map (bs : List Bool) (q : List Msg) :
    offRecvBits bs.length (bs.map Msg.bit ++ q) = .ok (bs, q) := by
  induction bs with
  | nil => rfl
  | cons b bs ih =>
    simp only [List.length_cons, List.map_cons, List.cons_append, offRecvBits, recvBit, bind, Except.bind, ih]

/-- The offline state after one operation. -/
def offNext (E : Env) (m : OffNet) : Op → OffNet
  | .pub b => { m with gen := m.gen.push (genConst E m.gen.delta b) }
  | .inA _ => { m with gen := OffGen.push { m.gen with prgPos := m.gen.prgPos + 1 } (E.prg m.gen.prgPos) }
  | .inB _ => { m with gen := OffGen.push { m.gen with prgPos := m.gen.prgPos + 1 } (E.prg m.gen.prgPos) }
  | .and i j =>
    let a := m.gen.get E i
    let b := m.gen.get E j
    let r := garble E a (a ^^^ m.gen.delta) b (b ^^^ m.gen.delta) m.gen.delta m.gen.gid
    { gen := OffGen.push { m.gen with gid := m.gen.gid + 1, outLabels := m.gen.outLabels ++ [r.1] } r.1
      eva := { m.eva with gid := m.eva.gid + 1, gc := m.eva.gc ++ [r.2.1] ++ [r.2.2] } }
  | .xor i j => { m with gen := m.gen.push (m.gen.get E i ^^^ m.gen.get E j) }
  | .not i => { m with gen := m.gen.push (m.gen.get E i ^^^ m.gen.delta) }
  | .reveal p ws =>
    if p = .pub then
      { m with eva := { m.eva with pubValues := m.eva.pubValues ++ ws.map fun i => lsb (m.gen.get E i) } }
    else m

theorem off_step (E : Env) (m : OffNet) (h : m.toEva = []) (op : Op) :
    m.step E op = .ok (offNext E m op) ∧ (offNext E m op).toEva = [] ∧ Prefix m (offNext E m op) := by
  obtain ⟨g, e, q⟩ := m
  simp only at h
  subst h
  cases op with
  | and i j =>
    refine ⟨rfl, rfl, ⟨List.prefix_append _ _, ?_, List.prefix_rfl⟩⟩
    exact ⟨_, (List.append_assoc _ _ _).symm⟩
  | reveal p ws =>
    by_cases hp : p = .pub
    · have := offRecvBits_map (ws.map fun i => lsb (g.get E i)) []
      simp only [List.length_map, List.map_map, List.append_nil] at this
      have h2 : (Msg.bit ∘ fun i => lsb (g.get E i)) = fun i => Msg.bit (lsb (g.get E i)) := rfl
      rw [h2] at this
      refine ⟨?_, ?_, ?_⟩
      · simp only [OffNet.step, hp, if_true, List.nil_append, bind, Except.bind, this, offNext]
      · simp [offNext, hp]
      · simp only [offNext, hp, if_true]
        exact ⟨List.prefix_rfl, List.prefix_rfl, List.prefix_append _ _⟩
    · refine ⟨by simp [OffNet.step, offNext, hp], by simp [offNext, hp], ?_⟩
      simp only [offNext, hp, if_false]
      exact ⟨List.prefix_rfl, List.prefix_rfl, List.prefix_rfl⟩
  | _ => exact ⟨rfl, rfl, ⟨List.prefix_rfl, List.prefix_rfl, List.prefix_rfl⟩⟩

theorem off_run (E : Env) (ops : List Op) : ∀ (m : OffNet), m.toEva = [] →
    ∃ f, m.run E ops = .ok f ∧ f.toEva = [] ∧ Prefix m f ∧ f.gen.delta = m.gen.delta := by
  induction ops with
  | nil => intro m h; exact ⟨m, rfl, h, ⟨List.prefix_rfl, List.prefix_rfl, List.prefix_rfl⟩, rfl⟩
  | cons op ops ih =>
    intro m h
    obtain ⟨e1, h1, p1⟩ := off_step E m h op
    obtain ⟨f, e2, h2, p2, d2⟩ := ih _ h1
    refine ⟨f, by simp only [OffNet.run, e1, bind, Except.bind, e2], h2,
      ⟨p1.out.trans p2.out, p1.gc.trans p2.gc, p1.pv.trans p2.pv⟩, d2.trans ?_⟩
    cases op <;> simp [offNext, OffGen.push]
    split <;> rfl

theorem getD_push {α : Type} (l : List α) (x d : α) (i : Nat) :
    (l ++ [x]).getD i d = if i = l.length then x else l.getD i d := by
  simp only [List.getD_eq_getElem?_getD]
  by_cases h : i < l.length
  · rw [List.getElem?_append_left h, if_neg (by omega)]
  · by_cases h2 : i = l.length
    · subst h2; simp
    · rw [if_neg h2, List.getElem?_eq_none (by simp; omega), List.getElem?_eq_none (by omega)]

theorem Replay.push {E : Env} {f m : OffNet} {n : OnNet} {w : List Bool} (h : Replay E f m n w)
    {m' : OffNet} {n' : OnNet} {lg le : Block} {v : Bool} (hr : le = lg ^^^ sel v m.gen.delta)
    (d : m'.gen.delta = m.gen.delta) (nd : n'.gen.delta = n.gen.delta)
    (mw : m'.gen.wires = m.gen.wires ++ [lg]) (gw : n'.gen.wires = n.gen.wires ++ [lg])
    (ew : n'.eva.wires = n.eva.wires ++ [le])
    (prg : n'.gen.prgPos = m'.gen.prgPos) (ggid : n'.gen.gid = m'.gen.gid) (egid : n'.eva.gid = m'.gen.gid)
    (olen : m'.gen.outLabels.length = m'.gen.gid) (glen : m'.eva.gc.length = m'.gen.gid * 2)
    (cnt : n'.eva.revealCounter = m'.eva.pubValues.length)
    (out : n'.gen.outLabels = n.gen.outLabels) (gc : n'.eva.gc = n.eva.gc) (pv : n'.eva.pubValues = n.eva.pubValues)
    (te : n'.toEva = []) (tg : n'.toGen = []) (off : m'.toEva = []) :
    Replay E f m' n' (w ++ [v]) := by
  refine ⟨d ▸ h.delta, by rw [nd, d, h.ndelta], by rw [gw, mw, h.gwires], prg, ggid, egid, olen, glen, cnt,
    out.trans h.out, gc.trans h.gc, pv.trans h.pv, te, tg, off, by simp [mw, h.gw], by simp [ew, h.ew], ?_⟩
  intro i
  have := h.rel i
  simp only [OnEva.get, OffGen.get, Circuit.get, d, mw, ew, getD_push, h.gw, h.ew] at this ⊢
  by_cases hi : i = w.length
  · simp only [hi, if_true]; exact hr
  · simp only [hi, if_false]; exact this

theorem vget_prefix {α : Type} {a b : List α} {x : α} (h : a ++ [x] <+: b) : vget b a.length = .ok x := by
  obtain ⟨t, rfl⟩ := h
  simp [vget]

theorem onGenReveal_alice (gl el : List Block) (vs : List Bool) (delta : Block) (hd : lsb delta = true)
    (h1 : el.length = gl.length) (h2 : vs.length = gl.length)
    (h : ∀ i (_ : i < gl.length) (_ : i < el.length) (_ : i < vs.length), el[i] = gl[i] ^^^ sel vs[i] delta) :
    onGenReveal .alice gl (el.map fun l => Msg.bit (lsb l)) = .ok (vs, []) := by
  induction gl generalizing el vs with
  | nil =>
    have : el = [] := List.length_eq_zero_iff.mp h1
    have : vs = [] := List.length_eq_zero_iff.mp h2
    subst_vars; rfl
  | cons g gl ih =>
    cases el with
    | nil => simp at h1
    | cons e el =>
      cases vs with
      | nil => simp at h2
      | cons v vs =>
        have hrec := ih el vs (by simpa using h1) (by simpa using h2) (fun i a b c => by
          have := h (i + 1) (by simp; omega) (by simp; omega) (by simp; omega)
          simpa using this)
        have h0 : e = g ^^^ sel v delta := h 0 (by simp) (by simp) (by simp)
        have hb : (lsb e != lsb g) = v := by
          rw [h0, lsb_xor, lsb_sel _ _ hd]; cases lsb g <;> cases v <;> rfl
        simp only [List.map_cons, onGenReveal, recvBit, bind, Except.bind, hrec, hb]

theorem onGenReveal_other (p : Party) (hp : p ≠ .alice) (gl : List Block) (q : List Msg) :
    ∃ gb, onGenReveal p gl q = .ok (gb, q) := by
  induction gl with
  | nil => exact ⟨[], rfl⟩
  | cons g gl ih =>
    obtain ⟨gb, e⟩ := ih
    refine ⟨false :: gb, ?_⟩
    cases p <;> simp_all [onGenReveal, bind, Except.bind]

theorem onEvaReveal_alice (pv : List Bool) (c : Nat) (el : List Block) :
    ∃ eb, onEvaReveal .alice pv c el [] = .ok (eb, c, [], el.map fun l => Msg.bit (lsb l)) := by
  induction el with
  | nil => exact ⟨[], rfl⟩
  | cons l el ih =>
    obtain ⟨eb, e⟩ := ih
    exact ⟨false :: eb, by simp [onEvaReveal, e, bind, Except.bind]⟩

theorem onEvaReveal_bob (pv : List Bool) (c : Nat) (gl el : List Block) (vs : List Bool) (delta : Block)
    (hd : lsb delta = true) (h1 : el.length = gl.length) (h2 : vs.length = gl.length)
    (h : ∀ i (_ : i < gl.length) (_ : i < el.length) (_ : i < vs.length), el[i] = gl[i] ^^^ sel vs[i] delta) :
    onEvaReveal .bob pv c el (gl.map fun l => Msg.bit (lsb l)) = .ok (vs, c, [], []) := by
  induction gl generalizing el vs with
  | nil =>
    have : el = [] := List.length_eq_zero_iff.mp h1
    have : vs = [] := List.length_eq_zero_iff.mp h2
    subst_vars; rfl
  | cons g gl ih =>
    cases el with
    | nil => simp at h1
    | cons e el =>
      cases vs with
      | nil => simp at h2
      | cons v vs =>
        have hrec := ih el vs (by simpa using h1) (by simpa using h2) (fun i a b c => by
          have := h (i + 1) (by simp; omega) (by simp; omega) (by simp; omega)
          simpa using this)
        have h0 : e = g ^^^ sel v delta := h 0 (by simp) (by simp) (by simp)
        have hb : (lsb g != lsb e) = v := by
          rw [h0, lsb_xor, lsb_sel _ _ hd]; cases lsb g <;> cases v <;> rfl
        simp only [List.map_cons, onEvaReveal, recvBit, bind, Except.bind, hrec, hb]

theorem onEvaReveal_pub (pv : List Bool) (gl el : List Block) (vs : List Bool) (delta : Block)
    (hd : lsb delta = true) (h1 : el.length = gl.length) (h2 : vs.length = gl.length)
    (h : ∀ i (_ : i < gl.length) (_ : i < el.length) (_ : i < vs.length), el[i] = gl[i] ^^^ sel vs[i] delta)
    (done : List Bool) (hp : done ++ gl.map lsb <+: pv) :
    onEvaReveal .pub pv done.length el [] = .ok (vs, done.length + gl.length, [], []) := by
  induction gl generalizing el vs done with
  | nil =>
    have : el = [] := List.length_eq_zero_iff.mp h1
    have : vs = [] := List.length_eq_zero_iff.mp h2
    subst_vars; rfl
  | cons g gl ih =>
    cases el with
    | nil => simp at h1
    | cons e el =>
      cases vs with
      | nil => simp at h2
      | cons v vs =>
        have hrec := ih el vs (by simpa using h1) (by simpa using h2) (fun i a b c => by
          have := h (i + 1) (by simp; omega) (by simp; omega) (by simp; omega)
          simpa using this) (done ++ [lsb g]) (by simpa using hp)
        have h0 : e = g ^^^ sel v delta := h 0 (by simp) (by simp) (by simp)
        have hb : (lsb g != lsb e) = v := by
          rw [h0, lsb_xor, lsb_sel _ _ hd]; cases lsb g <;> cases v <;> rfl
        have hg : vget pv done.length = .ok (lsb g) := by
          apply vget_prefix
          refine List.IsPrefix.trans ?_ hp
          exact ⟨gl.map lsb, by simp⟩
        rw [List.length_append, List.length_singleton] at hrec
        have hc : done.length + (g :: gl).length = done.length + 1 + gl.length := by simp; omega
        rw [hc]
        simp only [onEvaReveal, bind, Except.bind, hg, hrec, hb]

theorem onOpen (gl el : List Block) (vs : List Bool) (delta : Block)
    (h1 : el.length = gl.length) (h2 : vs.length = gl.length)
    (h : ∀ i (_ : i < gl.length) (_ : i < el.length) (_ : i < vs.length), el[i] = gl[i] ^^^ sel vs[i] delta) :
    List.zipWith (fun l b => if b then l ^^^ delta else l) gl vs = el := by
  apply List.ext_getElem
  · simp; omega
  · intro i a b
    rw [List.length_zipWith] at a
    rw [List.getElem_zipWith, h i (by omega) b (by omega), sel_if]

theorem on_step (E : Env) (f m : OffNet) (n : OnNet) (w : List Bool) (op op' : Op) (h : Replay E f m n w)
    (hs : SameShape op op') (hp : Prefix (offNext E m op) f) :
    ∃ o n', n.step E op' = .ok (o, n') ∧ Replay E f (offNext E m op) n' (Circuit.next w op')
      ∧ List.Forall₂ RevealOk o.toList (Circuit.opened w [op']) := by
  have hget : ∀ i, n.gen.get E i = m.gen.get E i := by
    intro i; simp [OnGen.get, OffGen.get, h.gwires, h.ndelta]
  cases op' with
  | pub b =>
    have : op = .pub b := by cases op <;> simp_all [SameShape]
    subst this
    refine ⟨none, _, rfl, ?_, .nil⟩
    refine h.push (lg := genConst E m.gen.delta b) (le := evaConst E b) (v := b) ?_ rfl rfl rfl
      (by simp [OnGen.push, h.ndelta]) rfl h.prg h.ggid h.egid h.olen h.glen h.cnt rfl rfl rfl h.toEva h.toGen h.off
    cases b <;> simp [genConst, evaConst, sel, BitVec.xor_assoc]
  | inA b =>
    obtain ⟨c, rfl⟩ : ∃ c, op = .inA c := by cases op <;> simp_all [SameShape]
    refine ⟨none, { n with
        gen := OnGen.push { n.gen with prgPos := n.gen.prgPos + 1 } (E.prg n.gen.prgPos)
        eva := n.eva.push (if b then E.prg n.gen.prgPos ^^^ n.gen.delta else E.prg n.gen.prgPos)
        toEva := [] }, ?_, ?_, .nil⟩
    · simp only [OnNet.step, h.toEva, List.nil_append, recvBlk, bind, Except.bind]
    · refine h.push (lg := E.prg m.gen.prgPos)
        (le := if b then E.prg n.gen.prgPos ^^^ n.gen.delta else E.prg n.gen.prgPos) (v := b) ?_ rfl rfl rfl
        (by simp [OnGen.push, h.prg]) rfl (by simp [OnGen.push, offNext, OffGen.push, h.prg])
        h.ggid h.egid h.olen h.glen h.cnt rfl rfl rfl rfl h.toGen h.off
      rw [h.prg, h.ndelta, sel_if]
  | inB b =>
    obtain ⟨c, rfl⟩ : ∃ c, op = .inB c := by cases op <;> simp_all [SameShape]
    refine ⟨none, _, rfl, ?_, .nil⟩
    refine h.push (lg := E.prg m.gen.prgPos)
      (le := if b then E.prg n.gen.prgPos ^^^ n.gen.delta else E.prg n.gen.prgPos) (v := b) ?_ rfl rfl rfl
      (by simp [OnGen.push, h.prg]) rfl (by simp [OnGen.push, offNext, OffGen.push, h.prg])
      h.ggid h.egid h.olen h.glen h.cnt rfl rfl rfl h.toEva h.toGen h.off
    rw [h.prg, h.ndelta, sel_if]
  | xor i j =>
    have : op = .xor i j := by cases op <;> simp_all [SameShape]
    subst this
    refine ⟨none, _, rfl, ?_, .nil⟩
    refine h.push (lg := m.gen.get E i ^^^ m.gen.get E j) (le := n.eva.get E i ^^^ n.eva.get E j)
      (v := Circuit.get w i != Circuit.get w j) ?_ rfl rfl rfl
      (by simp [OnGen.push, hget]) rfl h.prg h.ggid h.egid h.olen h.glen h.cnt rfl rfl rfl h.toEva h.toGen h.off
    rw [h.rel i, h.rel j, ← sel_xor]
    ac_rfl
  | not i =>
    have : op = .not i := by cases op <;> simp_all [SameShape]
    subst this
    refine ⟨none, _, rfl, ?_, .nil⟩
    refine h.push (lg := m.gen.get E i ^^^ m.gen.delta) (le := n.eva.get E i)
      (v := !Circuit.get w i) ?_ rfl rfl rfl
      (by simp [OnGen.push, hget, h.ndelta]) rfl h.prg h.ggid h.egid h.olen h.glen h.cnt rfl rfl rfl h.toEva h.toGen h.off
    rw [h.rel i]
    cases Circuit.get w i <;> simp [sel, BitVec.xor_assoc]
  | and i j =>
    have : op = .and i j := by cases op <;> simp_all [SameShape]
    subst this
    have key := halfgate E (m.gen.get E i) (m.gen.get E j) m.gen.delta h.delta m.gen.gid (Circuit.get w i)
      (Circuit.get w j)
    rw [← h.rel i, ← h.rel j] at key
    have hout : m.gen.outLabels ++ [(garble E (m.gen.get E i) (m.gen.get E i ^^^ m.gen.delta) (m.gen.get E j)
      (m.gen.get E j ^^^ m.gen.delta) m.gen.delta m.gen.gid).1] <+: f.gen.outLabels := hp.out
    have hgc : m.eva.gc ++ [(garble E (m.gen.get E i) (m.gen.get E i ^^^ m.gen.delta) (m.gen.get E j)
      (m.gen.get E j ^^^ m.gen.delta) m.gen.delta m.gen.gid).2.1] ++ [(garble E (m.gen.get E i)
      (m.gen.get E i ^^^ m.gen.delta) (m.gen.get E j) (m.gen.get E j ^^^ m.gen.delta) m.gen.delta m.gen.gid).2.2]
      <+: f.eva.gc := hp.gc
    simp only [offNext]
    generalize garble E (m.gen.get E i) (m.gen.get E i ^^^ m.gen.delta) (m.gen.get E j)
      (m.gen.get E j ^^^ m.gen.delta) m.gen.delta m.gen.gid = r at key hout hgc ⊢
    have hl := vget_prefix hout
    have hg := vget_prefix hgc
    have hg0 := vget_prefix ((List.prefix_append _ _).trans hgc)
    rw [List.length_append, List.length_singleton, h.glen, ← h.egid, ← h.gc] at hg
    rw [h.glen, ← h.egid, ← h.gc] at hg0
    rw [h.olen, ← h.ggid, ← h.out] at hl
    refine ⟨none, { n with
        gen := OnGen.push { n.gen with gid := n.gen.gid + 1 } r.1
        eva := OnEva.push { n.eva with gid := n.eva.gid + 1 }
          (evalGate E (n.eva.get E i) (n.eva.get E j) (r.2.1, r.2.2) n.eva.gid) },
      by simp only [OnNet.step, hl, hg, hg0, bind, Except.bind], ?_, .nil⟩
    rw [← h.egid] at key
    refine h.push (v := Circuit.get w i && Circuit.get w j) key rfl rfl rfl rfl rfl h.prg
      (congrArg (· + 1) h.ggid) (congrArg (· + 1) h.egid)
      (by simp [OffGen.push, h.olen]) (by simp [OffGen.push, h.glen]; omega)
      h.cnt rfl rfl rfl h.toEva h.toGen rfl
  | reveal p ws =>
    have : op = .reveal p ws := by cases op <;> simp_all [SameShape]
    subst this
    have hgl : ws.map (n.gen.get E) = ws.map (m.gen.get E) := by
      apply List.map_congr_left; intro i _; exact hget i
    have hrel : ∀ i (_ : i < (ws.map (m.gen.get E)).length) (_ : i < (ws.map (n.eva.get E)).length)
        (_ : i < (ws.map (Circuit.get w)).length),
        (ws.map (n.eva.get E))[i] = (ws.map (m.gen.get E))[i] ^^^ sel (ws.map (Circuit.get w))[i] m.gen.delta := by
      intro i _ _ _
      simp only [List.getElem_map]
      exact h.rel _
    have hnext : Circuit.next w (.reveal p ws) = w := by simp [Circuit.next, Circuit.newWire]
    rw [hnext]
    cases p with
    | alice =>
      obtain ⟨eb, e1⟩ := onEvaReveal_alice n.eva.pubValues n.eva.revealCounter (ws.map (n.eva.get E))
      have e2 := onGenReveal_alice _ _ _ _ h.delta (by simp) (by simp) hrel
      refine ⟨some (.alice, ws.map (Circuit.get w), eb), n, ?_, h, .cons ⟨rfl, fun _ => rfl, fun hh => absurd rfl hh⟩ .nil⟩
      simp only [OnNet.step, hgl, h.toEva, h.toGen, List.nil_append, List.append_nil, e1, e2, bind, Except.bind,
        reduceCtorEq, if_false]
      obtain ⟨g, e, te, tg⟩ := n
      have a1 := h.toEva
      have a2 := h.toGen
      simp only at a1 a2
      subst a1 a2
      rfl
    | bob =>
      have e1 := onEvaReveal_bob n.eva.pubValues n.eva.revealCounter _ _ _ _ h.delta (by simp) (by simp) hrel
      obtain ⟨gb, e2⟩ := onGenReveal_other .bob (by simp) (ws.map (m.gen.get E)) []
      refine ⟨some (.bob, gb, ws.map (Circuit.get w)), n, ?_, h, .cons ⟨rfl, fun hh => absurd rfl hh, fun _ => rfl⟩ .nil⟩
      simp only [OnNet.step, hgl, h.toEva, h.toGen, List.nil_append, List.append_nil, e1, e2, bind, Except.bind,
        reduceCtorEq, if_false, if_true]
      obtain ⟨g, e, te, tg⟩ := n
      have a1 := h.toEva
      have a2 := h.toGen
      simp only at a1 a2
      subst a1 a2
      rfl
    | pub =>
      have hpv : m.eva.pubValues ++ (ws.map (m.gen.get E)).map lsb <+: n.eva.pubValues := by
        rw [h.pv, List.map_map]
        have := hp.pv
        simp only [offNext, if_true] at this
        exact this
      have e1 := onEvaReveal_pub n.eva.pubValues _ _ _ _ h.delta (by simp) (by simp) hrel _ hpv
      rw [← h.cnt] at e1
      have e3 := onOpen _ _ _ _ (by simp) (by simp) hrel
      obtain ⟨gb, e2⟩ := onGenReveal_other .pub (by simp) (ws.map (m.gen.get E))
        [.bits (ws.map (Circuit.get w)), .dig (E.hash (ws.map (n.eva.get E)))]
      refine ⟨some (.pub, ws.map (Circuit.get w), ws.map (Circuit.get w)), { n with eva := { n.eva with
        revealCounter := n.eva.revealCounter + (ws.map (m.gen.get E)).length } }, ?_, ?_,
        .cons ⟨rfl, fun _ => rfl, fun _ => rfl⟩ .nil⟩
      · simp only [OnNet.step, hgl, h.toEva, h.toGen, List.nil_append, List.append_nil, e1, e2, bind, Except.bind,
          reduceCtorEq, if_false, if_true, onPublicCheck, recvBits, recvDig, h.ndelta, e3, List.length_map, ne_eq,
          not_true_eq_false]
      · simp only [offNext, if_true]
        exact ⟨h.delta, h.ndelta, h.gwires, h.prg, h.ggid, h.egid, h.olen, h.glen, by simp [h.cnt], h.out, h.gc, h.pv,
          h.toEva, h.toGen, h.off, h.gw, h.ew, h.rel⟩

theorem off_on_run (E : Env) (f : OffNet) (ops : List Op) : ∀ (ops' : List Op) (m : OffNet) (n : OnNet) (w : List Bool),
    List.Forall₂ SameShape ops ops' → m.run E ops = .ok f → Replay E f m n w →
    ∃ os n', n.run E ops' = .ok (os, n') ∧ List.Forall₂ RevealOk os (Circuit.opened w ops')
      ∧ n'.toEva = [] ∧ n'.toGen = [] ∧ n'.gen.gid = f.gen.gid ∧ n'.eva.gid = f.gen.gid
      ∧ n'.gen.outLabels.length = n'.gen.gid := by
  induction ops with
  | nil =>
    intro ops' m n w hs hr h
    cases hs
    simp only [OffNet.run, Except.ok.injEq] at hr
    subst hr
    exact ⟨[], n, rfl, .nil, h.toEva, h.toGen, h.ggid, h.egid, by rw [h.out, h.olen, h.ggid]⟩
  | cons op ops ih =>
    intro ops' m n w hs hr h
    cases hs with
    | cons h1 h2 =>
      rename_i op' ops''
      obtain ⟨e1, q1, p1⟩ := off_step E m h.off op
      simp only [OffNet.run, e1, bind, Except.bind] at hr
      obtain ⟨f', e2, _, p2, _⟩ := off_run E ops _ q1
      have hf : f' = f := by rw [e2] at hr; exact Except.ok.inj hr
      subst hf
      obtain ⟨o, n1, s1, r1, o1⟩ := on_step E f' m n w op op' h h1 p2
      obtain ⟨os, n2, s2, o2, rest⟩ := ih ops'' _ n1 _ h2 hr r1
      refine ⟨o.toList ++ os, n2, by simp only [OnNet.run, s1, s2, bind, Except.bind], ?_, rest⟩
      rw [opened_cons]
      exact List.rel_append o1 o2

theorem setDelta_idem (d : Block) : setDelta (setDelta d) = setDelta d := by
  unfold setDelta; rw [← BitVec.or_assoc, BitVec.or_self]

theorem replay_start (E : Env) (d : Block) (f : OffNet) (hd : f.gen.delta = setDelta d) :
    Replay E f { gen := { delta := setDelta d } } (syncOnline f) [] := by
  have hd' : setDelta f.gen.delta = setDelta d := by rw [hd]; exact setDelta_idem d
  refine ⟨C16_delta d, hd', rfl, rfl, rfl, rfl, rfl, rfl, rfl, rfl, rfl, rfl, rfl, rfl, rfl, rfl, rfl, fun i => ?_⟩
  simp [OnEva.get, OffGen.get, Circuit.get, syncOnline, evaConst, genConst, sel]

/-- **C18.**  For every program run offline and every online program that differs from it only in the values of the
private inputs, all hash functions, permutations and label streams: both phases succeed, nothing is read out of range,
all messages are consumed, every recorded gate is used, and every reveal of the online phase gives the plaintext values
of the *online* program to the parties entitled to them. -/
theorem C18_offline_online (E : Env) (d : Block) (ops ops' : List Op) (hs : List.Forall₂ SameShape ops ops') :
    ∃ f os n', OffNet.run E { gen := { delta := setDelta d } } ops = .ok f
      ∧ (syncOnline f).run E ops' = .ok (os, n')
      ∧ List.Forall₂ RevealOk os (Circuit.opened [] ops')
      ∧ n'.toEva = [] ∧ n'.toGen = [] ∧ n'.gen.gid = f.gen.gid ∧ n'.eva.gid = f.gen.gid := by
  obtain ⟨f, e, _, _, hd⟩ := off_run E ops { gen := { delta := setDelta d } } rfl
  obtain ⟨os, n', r, a, b, c, x, y, _⟩ := off_on_run E f ops ops' _ _ [] hs e (replay_start E d f hd)
  exact ⟨f, os, n', e, r, a, b, c, x, y⟩

theorem on_run_append (E : Env) (a b : List Op) : ∀ (n : OnNet),
    n.run E (a ++ b) = (do
      let (os, n) ← n.run E a
      let (os', n) ← n.run E b
      .ok (os ++ os', n)) := by
  induction a with
  | nil =>
    intro n
    simp only [List.nil_append, OnNet.run, bind, Except.bind]
    cases n.run E b <;> simp
  | cons op a ih =>
    intro n
    simp only [List.cons_append, OnNet.run, bind, Except.bind, ih]
    cases n.step E op with
    | error e => rfl
    | ok x =>
      simp only
      cases OnNet.run E x.2 a with
      | error e => rfl
      | ok y =>
        simp only
        cases OnNet.run E y.2 b with
        | error e => rfl
        | ok z => simp

theorem off_on_labels (E : Env) (f : OffNet) (ops : List Op) : ∀ (ops' : List Op) (m : OffNet) (n : OnNet) (w : List Bool),
    List.Forall₂ SameShape ops ops' → m.run E ops = .ok f → Replay E f m n w →
    ∃ os n', n.run E ops' = .ok (os, n') ∧ Replay E f f n' (ops'.foldl Circuit.next w) := by
  induction ops with
  | nil =>
    intro ops' m n w hs hr h
    cases hs
    simp only [OffNet.run, Except.ok.injEq] at hr
    subst hr
    exact ⟨[], n, rfl, h⟩
  | cons op ops ih =>
    intro ops' m n w hs hr h
    cases hs with
    | cons h1 h2 =>
      rename_i op' ops''
      obtain ⟨e1, q1, p1⟩ := off_step E m h.off op
      simp only [OffNet.run, e1, bind, Except.bind] at hr
      obtain ⟨f', e2, _, p2, _⟩ := off_run E ops _ q1
      have hf : f' = f := by rw [e2] at hr; exact Except.ok.inj hr
      subst hf
      obtain ⟨o, n1, s1, r1, o1⟩ := on_step E f' m n w op op' h h1 p2
      obtain ⟨os, n2, s2, rest⟩ := ih ops'' _ n1 _ h2 hr r1
      exact ⟨o.toList ++ os, n2, by simp only [OnNet.run, s1, s2, bind, Except.bind], rest⟩

/-- **C18, labels.**  After the online phase the labels of the two parties on every wire differ by the value of the wire times `Delta`, and
the least significant bits of the labels (which `AEAD` reads as shares of the key stream) are an xor sharing of the value. -/
theorem C18_shares (E : Env) (d : Block) (ops ops' : List Op) (hs : List.Forall₂ SameShape ops ops') (f : OffNet)
    (hf : OffNet.run E { gen := { delta := setDelta d } } ops = .ok f) :
    ∃ os n', (syncOnline f).run E ops' = .ok (os, n')
      ∧ (∀ i, n'.eva.get E i = n'.gen.get E i ^^^ (if Circuit.get (ops'.foldl Circuit.next []) i then setDelta d else 0))
      ∧ ∀ i, ((n'.gen.get E i).getLsbD 0 ^^ (n'.eva.get E i).getLsbD 0) = Circuit.get (ops'.foldl Circuit.next []) i := by
  obtain ⟨f', e, _, _, hd⟩ := off_run E ops { gen := { delta := setDelta d } } rfl
  have : f' = f := by rw [e] at hf; exact Except.ok.inj hf
  subst this
  obtain ⟨os, n', r, h⟩ := off_on_labels E f' ops ops' _ _ [] hs e (replay_start E d f' hd)
  have hg : ∀ i, n'.gen.get E i = f'.gen.get E i := by
    intro i
    unfold OnGen.get OffGen.get
    rw [h.gwires, h.ndelta]
  have hr : ∀ i, n'.eva.get E i = n'.gen.get E i ^^^ (if Circuit.get (ops'.foldl Circuit.next []) i then setDelta d else 0) := by
    intro i
    rw [h.rel i, hg i, hd]
    cases Circuit.get (ops'.foldl Circuit.next []) i <;> simp [sel]
  refine ⟨os, n', r, hr, fun i => ?_⟩
  rw [hr i]
  cases Circuit.get (ops'.foldl Circuit.next []) i
  · simp
  · simp only [if_true, BitVec.getLsbD_xor, C16_delta]
    cases (n'.gen.get E i).getLsbD 0 <;> rfl

/-- An online program with one gate more than the offline one reads out of range. -/
theorem C18_extra_gate (E : Env) (d : Block) (ops ops' : List Op) (i j : Nat) (hs : List.Forall₂ SameShape ops ops')
    (f : OffNet) (hf : OffNet.run E { gen := { delta := setDelta d } } ops = .ok f) :
    ∃ m, (syncOnline f).run E (ops' ++ [.and i j]) = .error (.ub m) := by
  obtain ⟨f', e, _, _, hd⟩ := off_run E ops { gen := { delta := setDelta d } } rfl
  have : f' = f := by rw [e] at hf; exact Except.ok.inj hf
  subst this
  obtain ⟨os, n', r, a, b, c, x, y, l⟩ := off_on_run E f' ops ops' _ _ [] hs e (replay_start E d f' hd)
  have hv : vget n'.gen.outLabels n'.gen.gid = .error (.ub "vector index out of range") := by
    unfold vget
    rw [List.getElem?_eq_none (by omega)]
  refine ⟨"vector index out of range", ?_⟩
  rw [on_run_append, r]
  simp only [bind, Except.bind, OnNet.run, OnNet.step, hv]

example : List.Forall₂ SameShape (exOps false false) (exOps true true) := by
  repeat' constructor

end Verif.Props
