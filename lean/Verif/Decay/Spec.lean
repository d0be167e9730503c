import Verif.Flow.Spec
import Verif.Partition.Spec
import Verif.Louvain.Model

/-!
# Comparison of covariances: vocabulary of the statements
-/

set_option linter.dupNamespace false

namespace Verif.Decay

open Verif.Trans

variable {K : Type} [Field K] [LinearOrder K] [IsStrictOrderedRing K]

/-- The quadratic form of a matrix: for weights `x` of the nodes, the covariance of their sum. -/
def form (n : Nat) (A : Mat K) (x : Nat → K) : K :=
  ∑ i ∈ Finset.range n, ∑ j ∈ Finset.range n, x i * A i j * x j

/-- `A` is nowhere larger than `B`: no weights of the nodes have a larger covariance. -/
def Below (n : Nat) (A B : Mat K) : Prop := ∀ x : Nat → K, form n A x ≤ form n B x

/-- Probability of a cluster. -/
def share (p : Nat → K) (c : Finset Nat) : K := ∑ i ∈ c, p i

end Verif.Decay
