import Verif.EndToEnd.Spec
import Mathlib.MeasureTheory.Measure.Lebesgue.Basic

/-!
# Contacts that are recorded inexactly: vocabulary of the statements
-/

set_option linter.dupNamespace false

namespace Verif.Noise

open Verif.TempNet Verif.Trans Verif.Flow Verif.EndToEnd MeasureTheory

variable {L : Type} [LinearOrder L]

/-- The moments at which two tables do not have the same contacts. -/
def apart (evs evs' : List (Event L ℝ)) (nodes : List L) : Set ℝ :=
  {u | ∃ i j, ¬(InContact evs nodes u i j ↔ InContact evs' nodes u i j)}

/-- How long two tables do not have the same contacts. -/
noncomputable def timeApart (evs evs' : List (Event L ℝ)) (nodes : List L) : ℝ := (volume (apart evs evs' nodes)).toReal

/-- The second table has the same contacts, whose starting and ending times have been recorded with
errors of at most `ε`. -/
def Shifted (ε : ℝ) (evs evs' : List (Event L ℝ)) : Prop :=
  List.Forall₂ (fun e e' => e.src = e'.src ∧ e.tgt = e'.tgt ∧ |e.start - e'.start| ≤ ε ∧ |e.stop - e'.stop| ≤ ε) evs evs'

/-- Distance of the `i`-th rows of two matrices: for transition matrices, twice the share of the
walkers that start at `i` and end at another node. -/
def rowDist (n : Nat) (A B : Mat ℝ) (i : Nat) : ℝ := ∑ j ∈ Finset.range n, |A i j - B i j|

/-- Distance of two matrices: sum of the distances of their rows. -/
def totalDist (n : Nat) (A B : Mat ℝ) : ℝ := ∑ i ∈ Finset.range n, rowDist n A B i

end Verif.Noise
