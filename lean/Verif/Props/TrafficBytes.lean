import Verif.Props.WireBytes
import Verif.Props.TrafficShape

/-! # C97: bytes of a program on the ordinary backend, from the program without its private inputs -/

namespace Verif.Props.WireBytes
open Verif.Model Verif.Model.Wire Verif.Model.GC
open Verif.Props (NoCoincidence)
open Verif.Props.TrafficShape (toEv C96_traffic)
open Verif.Spec.Circuit (Party Op Traffic traffic blank)

/-- Sent by the garbler: tables of two blocks, and one byte for each unknown bit it opens to the other. -/
def trafficA : Traffic → Nat
  | .table => 32
  | .opening .pub _ k => k
  | .opening .bob _ k => k
  | _ => 0

/-- Sent by the evaluator: a byte for each input, the opened bits and a digest, or one byte for each unknown bit. -/
def trafficB : Traffic → Nat
  | .feedB => 1
  | .opening .pub n _ => n + 32
  | .opening .alice _ k => k
  | _ => 0

/-- A program, unless labels coincide with constants by accident. -/
theorem C97_program (E : GC.Env) (d : Block) (ops : List Op) (hc : NoCoincidence E (Direct.start d) ops) (batch top : Nat) (hb : 0 < batch) :
    sent .io (alice (.direct batch) top (.gates (genEvs E (Direct.start d) ops))).1 = ((traffic [] ops).map trafficA).sum ∧
    sent .io (bob (.direct batch) top (.gates (evaEvs E (Direct.start d) ops))).1 = ((traffic [] ops).map trafficB).sum := by
  rw [(C97_call _ _ 0 _ _).1, (C97_call _ 0 _ _ _).2.1, (C96_traffic E d ops hc).1, (C96_traffic E d ops hc).2]
  simp only [costA, costB, List.map_map]
  constructor
  · congr 2
    funext t
    cases t with
    | opening p n k => cases p <;> rfl
    | _ => rfl
  · congr 2
    funext t
    cases t with
    | opening p n k => cases p <;> rfl
    | feedB => simp [toEv, evB, trafficB]; omega
    | _ => rfl

/-- A program with a constant, in every environment without coincidences: one table, and what is known is not sent. -/
example : ∃ E : GC.Env, ∀ (a b : Bool) (batch top : Nat), 0 < batch →
    sent .io (alice (.direct batch) top (.gates (genEvs E (Direct.start 0) [.inA a, .inB b, .pub true, .and 0 1, .and 0 2, .reveal .pub [3, 2]]))).1 = 33 := by
  obtain ⟨E, _, _, h⟩ := Direct.C17_hypothesis_satisfiable
  exact ⟨E, fun a b batch top hb => (C97_program E 0 _ (h _) batch top hb).1.trans (by cases a <;> cases b <;> decide)⟩

end Verif.Props.WireBytes
