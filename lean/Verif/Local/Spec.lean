import Verif.Causal.Spec
import Verif.Trans.Spec

/-!
# What a walker can notice: vocabulary of the statements
-/

set_option linter.dupNamespace false

namespace Verif.Local

open Verif.TempNet Verif.Trans Verif.Causal

variable {L : Type}

/-- Walkers from `x` can be at `y` at time `u`.  Forward in time they start early, backward
(`reverse`) they start late; they can wait, and use a contact of the moment. -/
inductive Visits (evs : List (Event L ℝ)) (reverse : Bool) (x : L) : ℝ → L → Prop
  | start (u : ℝ) : Visits evs reverse x u x
  | wait {u v : ℝ} {y : L} : Visits evs reverse x u y → (if reverse then v ≤ u else u ≤ v) → Visits evs reverse x v y
  | jump {u : ℝ} {y z : L} : Visits evs reverse x u y → Touch evs u y z → Visits evs reverse x u z

/-- Wherever walkers from `x` can be, both tables have the same contacts at that moment. -/
def SameAlongWalks (evs evs' : List (Event L ℝ)) (reverse : Bool) (x : L) : Prop :=
  ∀ u y, Visits evs reverse x u y → ∀ z, Touch evs u y z ↔ Touch evs' u y z

/-- The probability that a matrix gives to the way from `x` to `y`, zero for labels that are not in
the network. -/
def prob [DecidableEq L] (nodes : List L) (T : Mat ℝ) (x y : L) : ℝ :=
  if x ∈ nodes ∧ y ∈ nodes then T (nodes.idxOf x) (nodes.idxOf y) else 0

end Verif.Local
