import Verif.Props.Profile
import Verif.Props.TrafficOnline

/-!
# C97: bytes of the gates of a whole connection, offline/online backend

The messages of the model of the backend on the program of a connection (`C70`), in closed form.
-/

namespace Verif.Props.ConnectionBytes
open Verif.Model Verif.Model.GC Verif.Model.Gate Verif.Lemmas.Profile
open Verif.Spec.Circuit (Op Party Form formGarbler formEvaluator bare offlineSize)
open Verif.Props.TrafficShape (form C96_online C96_offline)
open Verif.Props.EvaluatorBound (ands)
open Verif.Props.EvaluatorViewOnline (start C62_online_parties shape_refl)
open Verif.Props.GarblerView (C54_parties_online)
open Verif.Props.Profile (conn profile openings shownAll C70_counts C70_openings)

variable {L : Lib}

/-- Bytes of a message: a block has 16, a bit takes one byte, so does each of an array, a digest has 32. -/
def bytes : Form → Nat
  | .block => 16
  | .bit => 1
  | .bits n => n
  | .digest => 32

/-- Bytes an opening sends to the garbler. -/
def answer : Party × Nat → Nat
  | (.alice, n) => n
  | (.bob, _) => 0
  | (.pub, n) => n + 32

/-- Bits the garbler gives away for an opening before the online phase. -/
def ahead : Party × Nat → Nat
  | (.pub, n) => n
  | _ => 0

theorem garbler_bytes (ops : List Op) : ((ops.flatMap formGarbler).map bytes).sum = ((openings ops).map answer).sum := by
  induction ops with
  | nil => rfl
  | cons op ops ih =>
    simp only [List.flatMap_cons, List.map_append, List.sum_append, ih]
    cases op with
    | reveal p ws => cases p <;> simp [formGarbler, openings, bytes, answer]
    | _ => simp [formGarbler, openings]

theorem offline_bytes (ops : List Op) : (ops.map fun o => (offlineSize (bare o)).1).sum = 2 * ands ops
    ∧ (ops.map fun o => (offlineSize (bare o)).2).sum = ((openings ops).map ahead).sum := by
  induction ops with
  | nil => exact ⟨rfl, rfl⟩
  | cons op ops ih =>
    simp only [List.map_cons, List.sum_cons, ih.1, ih.2]
    cases op with
    | reveal p ws => cases p <;> simp [offlineSize, bare, openings, ands, ahead]
    | and i j => simp [offlineSize, bare, openings, ands]; omega
    | _ => simp [offlineSize, bare, openings, ands]

/-- A connection that runs through, on the offline/online backend: both phases end; the garbler sends 32 bytes for each conjunction of the
profile and one for each bit to be opened in the offline phase; in the online phase it is sent one byte for each opened bit and a digest of 32
for each opening, whatever the inputs. -/
theorem C97_connection (hL : LibCost L) (q : Nat) (hq : bnNumBytes q < 2 ^ 56) (rounds : Bool) (ops : List Call) (hs : ∀ op ∈ ops, Small op) (hn : ops.length < 2 ^ 53)
    (O : Oracle) (x : List Out × ConnG) (t : Sess) (e : conn L q rounds ops O {} = .ok (x, t)) (E : GC.Env) (d : Block) :
    ∃ f l n, (start d).run E t.program = .ok f ∧ (syncOnline f).record E t.program = .ok (l, n)
      ∧ 16 * f.eva.gc.length = 32 * (profile q rounds ops).ands
      ∧ f.eva.pubValues.length = ((shownAll rounds true ops).map ahead).sum
      ∧ ((l.map form).map bytes).sum = ((shownAll rounds true ops).map answer).sum := by
  obtain ⟨f, os, n, l', _, a1, a2, a3, -⟩ := C62_online_parties E d t.program t.program (List.forall₂_same.2 fun x _ => shape_refl x)
  obtain ⟨l, c1, -⟩ := C54_parties_online E t.program _ _ _ a2
  obtain ⟨g1, g2⟩ := C96_offline E t.program _ _ a1
  obtain ⟨-, -, k1, -⟩ := C70_counts hL q hq rounds ops hs hn O x t e
  have k2 := C70_openings hL q hq rounds ops hs hn O x t e
  refine ⟨f, l, n, a1, c1, ?_, ?_, ?_⟩
  · rw [g1, (offline_bytes _).1, k1]
    show 16 * (0 + _) = _
    omega
  · rw [g2, (offline_bytes _).2, k2]
    exact Nat.zero_add _
  · rw [(C96_online E t.program _ n n l []).1 c1, garbler_bytes, k2]

/-- The connection of C70 with the rounds of the PRF inside: 27.7 megabytes of tables, and 448 bytes back in the online phase. -/
example (E : GC.Env) (d : Block) : ∃ x t f l n, conn empLib 251 true Profile.exOps Verif.Lemmas.Gate.plain {} = .ok (x, t)
    ∧ (start d).run E t.program = .ok f ∧ (syncOnline f).record E t.program = .ok (l, n)
    ∧ 16 * f.eva.gc.length = 27710368 ∧ f.eva.pubValues.length = 352 ∧ ((l.map form).map bytes).sum = 448 := by
  obtain ⟨x, t, e⟩ := Profile.exOps_run true
  obtain ⟨f, l, n, h1, h2, h3, h4, h5⟩ := C97_connection empLib_cost 251 (by decide +kernel) true Profile.exOps Profile.exOps_small (by decide) _ x t e E d
  exact ⟨x, t, f, l, n, e, h1, h2, by rw [h3, show (profile 251 true Profile.exOps).ands = 865949 by decide +kernel], h4, h5⟩

end Verif.Props.ConnectionBytes
