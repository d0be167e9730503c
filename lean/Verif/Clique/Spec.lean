import Verif.Causal.Spec
import Mathlib.MeasureTheory.Measure.Lebesgue.Basic
import Mathlib.Analysis.SpecialFunctions.Exp

/-!
# Groups that meet: vocabulary of the statements
-/

set_option linter.dupNamespace false

namespace Verif.Clique

open Verif.TempNet Verif.Causal MeasureTheory

variable {L : Type} [DecidableEq L]

/-- At the moments of `D` everybody of `G` is in contact with everybody else of `G`; there is no other
contact of anybody of `G`. -/
def Meets (evs : List (Event L ℝ)) (G : Finset L) (D : Set ℝ) : Prop :=
  ∀ x ∈ G, ∀ u z, Touch evs u x z ↔ u ∈ D ∧ z ∈ G ∧ z ≠ x

/-- How long the moments of `D` last together. -/
noncomputable def duration (D : Set ℝ) : ℝ := (volume D).toReal

/-- Share of the walkers from `x` that are at `y`, if a share `lost` of them has not been mixed evenly over the
`k` members of the group. -/
noncomputable def mixed (k : Nat) (lost : ℝ) (x y : L) : ℝ := lost * (if x = y then 1 else 0) + (1 - lost) / k

/-- Sum of the durations of the contacts of a label. -/
def contactTime (evs : List (Event L ℝ)) (x : L) : ℝ :=
  ((evs.filter fun e => e.src = x ∨ e.tgt = x).map fun e => e.stop - e.start).sum

end Verif.Clique
