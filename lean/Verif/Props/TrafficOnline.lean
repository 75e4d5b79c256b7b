import Verif.Spec.Known
import Verif.Props.EvaluatorViewOnline
import Verif.Props.GarblerView

/-!
# C96: the offline/online backend

No gate and no opening looks at constants here, so the messages of both phases are fixed by the program without the private inputs and
without the constants.  The labels need not be free of coincidences.
-/

namespace Verif.Props.TrafficShape

open Verif.Model Verif.Model.GC Verif.Spec
open Verif.Props.EvaluatorViewOnline (C62_online_parties shape_refl)
open Verif.Props.GarblerView (C54_parties_online)
open Verif.Spec.Circuit (Party Op Form formGarbler formEvaluator bare offlineSize)

/-- The form of a message of the model. -/
def form : Msg → Form
  | .blk _ => .block
  | .bit _ => .bit
  | .bits b => .bits b.length
  | .dig _ => .digest

theorem reveal_form (p : Party) (pv : List Bool) : ∀ (ls : List Block) (c : Nat) (q : List Msg) {bs c' q' s},
    onEvaReveal p pv c ls q = .ok (bs, c', q', s) →
      bs.length = ls.length ∧ s.map form = if p = .alice then List.replicate ls.length .bit else [] := by
  intro ls
  induction ls with
  | nil => intro c q bs c' q' s h; cases h; simp
  | cons l ls ih =>
    intro c q bs c' q' s h
    cases p <;> simp only [onEvaReveal, bind, Except.bind] at h
    · split at h
      · cases h
      · rename_i r hr
        obtain ⟨bs1, c1, q1, s1⟩ := r
        cases h
        obtain ⟨h1, h2⟩ := ih _ _ hr
        exact ⟨by simp [h1], by simp at h2; simp [h2, form, List.replicate_succ]⟩
    · split at h
      · cases h
      · split at h
        · cases h
        · rename_i r hr
          obtain ⟨bs1, c1, q1, s1⟩ := r
          cases h
          obtain ⟨h1, h2⟩ := ih _ _ hr
          exact ⟨by simp [h1], h2⟩
    · split at h
      · cases h
      · split at h
        · cases h
        · rename_i r hr
          obtain ⟨bs1, c1, q1, s1⟩ := r
          cases h
          obtain ⟨h1, h2⟩ := ih _ _ hr
          exact ⟨by simp [h1], h2⟩

theorem eva_form (E : Env) (ot : Block × Block) (e : OnEva) (op : Op) (q : List Msg) {o e' q' s}
    (h : e.step E ot op q = .ok (o, e', q', s)) : s.map form = formGarbler op := by
  cases op with
  | pub b => cases h; rfl
  | inB b => cases h; rfl
  | xor i j => cases h; rfl
  | not i => cases h; rfl
  | inA b =>
    simp only [OnEva.step, bind, Except.bind] at h
    split at h
    · cases h
    · cases h; rfl
  | and i j =>
    simp only [OnEva.step, bind, Except.bind] at h
    split at h
    · cases h
    · split at h
      · cases h
      · cases h; rfl
  | reveal p ws =>
    simp only [OnEva.step, bind, Except.bind] at h
    split at h
    · cases h
    · rename_i r hr
      obtain ⟨bs1, c1, q1, s1⟩ := r
      cases h
      obtain ⟨h1, h2⟩ := reveal_form p _ _ _ _ hr
      rw [List.map_append, h2]
      cases p <;> simp [formGarbler, form, h1]

theorem gen_form (E : Env) (n : OnNet) (op : Op) {g : OnGen} {m : List Msg} (h : n.gen.send E op = .ok (g, m)) :
    (m ++ n.chosen E op).map form = formEvaluator op := by
  cases op with
  | and i j =>
    simp only [OnGen.send, bind, Except.bind] at h
    split at h
    · cases h
    · cases h; rfl
  | reveal p ws =>
    cases h
    cases p <;> simp [formEvaluator, OnNet.chosen, form, Function.comp_def, List.map_const']
  | _ => cases h; rfl

/-- Any state, any program whose online phase ends: the messages to the garbler, and what the evaluator gets, have the forms that can be
read off the program. -/
theorem C96_online (E : Env) : ∀ (ops : List Op) (n n' n'' : OnNet) (l l' : List Msg),
    (n.record E ops = .ok (l, n') → l.map form = ops.flatMap formGarbler) ∧
    (n.recordEva E ops = .ok (l', n'') → l'.map form = ops.flatMap formEvaluator) := by
  intro ops
  induction ops with
  | nil => intro n n' n'' l l'; constructor <;> intro h <;> cases h <;> rfl
  | cons op ops ih =>
    intro n n' n'' l l'
    constructor <;> intro h
    · simp only [OnNet.record, bind, Except.bind] at h
      split at h
      · cases h
      · split at h
        · cases h
        · rename_i r hr
          split at h
          · cases h
          · split at h
            · cases h
            · rename_i y hy
              cases h
              rw [List.map_append, List.flatMap_cons, eva_form E _ _ _ _ hr, (ih _ _ n'' _ l').1 hy]
    · simp only [OnNet.recordEva, bind, Except.bind] at h
      split at h
      · cases h
      · rename_i r hr
        split at h
        · cases h
        · split at h
          · cases h
          · split at h
            · cases h
            · rename_i y hy
              cases h
              rw [List.map_append, List.flatMap_cons, gen_form E n op hr, (ih _ n' _ l _).2 hy]

theorem bare_forms (ops : List Op) : ops.flatMap formGarbler = (ops.map bare).flatMap formGarbler
    ∧ ops.flatMap formEvaluator = (ops.map bare).flatMap formEvaluator := by
  induction ops with
  | nil => exact ⟨rfl, rfl⟩
  | cons op ops ih =>
    simp only [List.flatMap_cons, List.map_cons, ← ih.1, ← ih.2]
    cases op <;> exact ⟨rfl, rfl⟩

/-- Two runs that differ in private inputs, constants, labels, offset, tables: the same messages but for what they say, both ways. -/
theorem C96_online_unseen (E E' : Env) (ops ops' : List Op) (hs : ops.map bare = ops'.map bare) (n m : OnNet)
    {l k l' k' : List Msg} {n1 m1 n2 m2 : OnNet} (h1 : n.record E ops = .ok (l, n1)) (h2 : m.record E' ops' = .ok (k, m1))
    (h3 : n.recordEva E ops = .ok (l', n2)) (h4 : m.recordEva E' ops' = .ok (k', m2)) :
    l.map form = k.map form ∧ l'.map form = k'.map form := by
  rw [(C96_online E ops n n1 n2 l l').1 h1, (C96_online E ops n n1 n2 l l').2 h3, (C96_online E' ops' m m1 m2 k k').1 h2,
    (C96_online E' ops' m m1 m2 k k').2 h4, (bare_forms ops).1, (bare_forms ops).2, hs, ← (bare_forms ops').1, ← (bare_forms ops').2]
  exact ⟨rfl, rfl⟩

/-- Offline phase: how much the evaluator has stored does not depend on inputs or constants either. -/
theorem C96_offline (E : Env) : ∀ (ops : List Op) (n f : OffNet), n.run E ops = .ok f →
    f.eva.gc.length = n.eva.gc.length + (ops.map fun o => (offlineSize (bare o)).1).sum ∧
    f.eva.pubValues.length = n.eva.pubValues.length + (ops.map fun o => (offlineSize (bare o)).2).sum := by
  have recv : ∀ (k : Nat) (q : List Msg) {bs q'}, offRecvBits k q = .ok (bs, q') → bs.length = k := by
    intro k
    induction k with
    | zero => intro q bs q' h; cases h; rfl
    | succ k ih =>
      intro q bs q' h
      simp only [offRecvBits, bind, Except.bind] at h
      split at h
      · cases h
      · split at h
        · cases h
        · rename_i r hr
          cases h
          simp [ih _ hr]
  have one : ∀ (op : Op) (n m : OffNet), n.step E op = .ok m →
      m.eva.gc.length = n.eva.gc.length + (offlineSize (bare op)).1 ∧
      m.eva.pubValues.length = n.eva.pubValues.length + (offlineSize (bare op)).2 := by
    intro op n m h
    cases op with
    | and i j =>
      simp only [OffNet.step, bind, Except.bind] at h
      split at h
      · cases h
      · cases h; simp [bare, offlineSize]
    | reveal p ws =>
      simp only [OffNet.step, bind, Except.bind] at h
      split at h
      · rename_i hp
        subst hp
        split at h
        · cases h
        · rename_i r hr
          cases h
          simp [bare, offlineSize, recv _ _ hr]
      · cases h
        cases p <;> simp_all [bare, offlineSize]
    | _ => cases h; simp [bare, offlineSize]
  intro ops
  induction ops with
  | nil => intro n f h; cases h; simp
  | cons op ops ih =>
    intro n f h
    simp only [OffNet.run, bind, Except.bind] at h
    split at h
    · cases h
    · rename_i m hm
      obtain ⟨a, b⟩ := one op n m hm
      obtain ⟨c, d⟩ := ih m f h
      simp only [List.map_cons, List.sum_cons]
      omega

/-- Every program ends, and every two programs that differ in inputs and constants only look the same on the wire in the online phase. -/
theorem C96_online_always (E E' : Env) (d d' : Block) (ops ops' : List Op) (hs : ops.map bare = ops'.map bare) :
    ∃ f f' l k l' k' n n' m m', (EvaluatorViewOnline.start d).run E ops = .ok f ∧ (EvaluatorViewOnline.start d').run E' ops' = .ok f'
      ∧ (syncOnline f).record E ops = .ok (l, n) ∧ (syncOnline f').record E' ops' = .ok (k, n')
      ∧ (syncOnline f).recordEva E ops = .ok (l', m) ∧ (syncOnline f').recordEva E' ops' = .ok (k', m')
      ∧ l.map form = k.map form ∧ l'.map form = k'.map form
      ∧ f.eva.gc.length = f'.eva.gc.length ∧ f.eva.pubValues.length = f'.eva.pubValues.length := by
  have refl : ∀ l : List Op, List.Forall₂ SameShape l l := fun l => List.forall₂_same.2 fun x _ => shape_refl x
  obtain ⟨f, os, n, l', _, a1, a2, a3, -⟩ := C62_online_parties E d ops ops (refl _)
  obtain ⟨f', os', n', k', _, b1, b2, b3, -⟩ := C62_online_parties E' d' ops' ops' (refl _)
  obtain ⟨l, c1, -⟩ := C54_parties_online E ops _ _ _ a2
  obtain ⟨k, c2, -⟩ := C54_parties_online E' ops' _ _ _ b2
  obtain ⟨e1, e2⟩ := C96_online_unseen E E' ops ops' hs _ _ c1 c2 a3 b3
  obtain ⟨g1, g2⟩ := C96_offline E ops _ _ a1
  obtain ⟨g3, g4⟩ := C96_offline E' ops' _ _ b1
  have e : ∀ (h : Op → Nat), (ops.map fun o => h (bare o)) = ops'.map fun o => h (bare o) := fun h => by
    simpa [Function.comp_def] using congrArg (List.map h) hs
  refine ⟨f, f', l, k, l', k', n, n', n, n', a1, b1, c1, c2, a3, b3, e1, e2, ?_, ?_⟩
  · rw [g1, g3, e fun o => (offlineSize o).1]; rfl
  · rw [g2, g4, e fun o => (offlineSize o).2]; rfl

/-- Another constant changes nothing on the wire here (compare `C96_constants_seen`). -/
example (a b a' b' c c' : Bool) : [Op.inA a, .inB b, .pub c, .and 0 2, .reveal .pub [3, 2]].map bare
    = [Op.inA a', .inB b', .pub c', .and 0 2, .reveal .pub [3, 2]].map bare := rfl

example (a b c : Bool) : [Op.inA a, .inB b, .pub c, .and 0 2, .reveal .pub [3, 2], .reveal .alice [3]].flatMap formGarbler
    = [.bits 2, .digest, .bit] := rfl

end Verif.Props.TrafficShape
