import Verif.Scripts.LoadModel
import Verif.Scripts.CovSpec
import Verif.Scripts.CompSpec

/-!
# Vocabulary for the statements about loaded covariances
-/

set_option linter.unusedSectionVars false

namespace Verif.Scripts.Load

open Verif.Trans Verif.Flow Verif.Scripts

variable {K : Type} [Field K] [LinearOrder K] [IsStrictOrderedRing K]

/-- The transitions of a flow from its start to the end of each of its steps, each with the time
the flow stays there. -/
def flowOf (n : Nat) (l : List (Mat K × K)) : List (K × Mat K) :=
  (List.range l.length).map fun m => ((l.getD m (eye, 0)).2, prod n ((l.take (m + 1)).map (·.1)))

/-- The times in the files of the intervals belong together: the length of an interval is the
sum of the times between its events, which are not negative. -/
def Timed (slices : Nat → Option (Slice K)) : Prop :=
  ∀ k s, slices k = some s → s.span = (s.inter.map (·.2)).sum ∧ ∀ e ∈ s.inter, 0 ≤ e.2

open Classical in
/-- The sum of `S` over all pairs of nodes in the same cluster. -/
noncomputable def insideSum (n : Nat) (S : Mat K) (cl : List (Finset Nat)) : K :=
  ∑ i ∈ Finset.range n, ∑ j ∈ Finset.range n, if ∃ c ∈ cl, i ∈ c ∧ j ∈ c then S i j else 0

end Verif.Scripts.Load
