import Verif.EndToEnd.Spec
import Verif.Decay.Spec
import Mathlib.MeasureTheory.Integral.IntervalIntegral.Basic

/-!
# The walk in continuous time: vocabulary of the statements
-/

set_option linter.dupNamespace false

namespace Verif.Average

open Verif.TempNet Verif.Trans Verif.Flow Verif.EndToEnd Verif.Decay

/-- `P u` is the transition matrix of a walk between its start and time `u`.  Forward the walk
starts at `a`, backward at `b`.  The walk moves with the given rate and generator: as long as the
generator does not change, its exponential is applied. -/
structure Walk (n : Nat) (rate : ℝ) (g : ℝ → Mat ℝ) (a b : ℝ) (reverse : Bool) (P : ℝ → Mat ℝ) : Prop where
  start : EqOn n (P (if reverse then b else a)) eye
  moves : ∀ s u, a ≤ s → s ≤ u → u ≤ b → (∀ v, s ≤ v → v < u → EqOn n (g v) (g s)) →
    if reverse then EqOn n (P s) (mul n (P u) (expm n fun i j => -((u - s) * rate) * g s i j))
    else EqOn n (P u) (mul n (P s) (expm n fun i j => -((u - s) * rate) * g s i j))

variable {L : Type} [LinearOrder L]

/-- The walk on the contacts: walkers leave their node at rate `1 / scale` and go to a node in
contact with it at that time. -/
def ContactWalk (evs : List (Event L ℝ)) (nodes : List L) (scale a b : ℝ) (reverse : Bool) (P : ℝ → Mat ℝ) : Prop :=
  Walk nodes.length (1 / scale) (fun u => walkLaplacian nodes.length (InContact evs nodes u)) a b reverse P

/-- The same labels are in contact at all times. -/
def SameMoments (evs evs' : List (Event L ℝ)) (nodes : List L) : Prop :=
  ∀ u i j, InContact evs nodes u i j ↔ InContact evs' nodes u i j

/-- Mean of a function of time between `a` and `b`. -/
noncomputable def meanOver (a b : ℝ) (f : ℝ → ℝ) : ℝ := (∫ u in a..b, f u) / (b - a)

end Verif.Average
