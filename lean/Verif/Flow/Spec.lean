import Verif.Trans.Spec
import Verif.Autocov.Spec

/-!
# Flow integrals: vocabulary of the statements

Independent of the model of the code, except for the type of matrices, their product and
`Stoch`, `prod` and `EqOn` of the transition matrices.
-/

set_option linter.dupNamespace false

namespace Verif.Flow

open Verif.Trans

variable {K : Type} [Field K] [LinearOrder K] [IsStrictOrderedRing K]

/-- Probability of `k` after the transition `T` from the distribution `p`. -/
def after (n : Nat) (p : Nat → K) (T : Mat K) (k : Nat) : K := ∑ i ∈ Finset.range n, p i * T i k

/-- Forward covariance of a transition: the probability that two walkers that end at the same
node, the second one chosen among the walkers there, started at `i` and `j`, minus the product of
the probabilities of `i` and `j`. -/
def covAt (n : Nat) (p : Nat → K) (T : Mat K) : Mat K := fun i j =>
  (∑ k ∈ Finset.range n, if after n p T k = 0 then 0 else (p i * T i k) * (p j * T j k) / after n p T k) - p i * p j

/-- Mean of the covariances, with weights. -/
def meanCov (n : Nat) (p : Nat → K) (l : List (K × Mat K)) : Mat K := fun i j =>
  (l.map fun e => e.1 * covAt n p e.2 i j).sum / (l.map (·.1)).sum

/-- The first `m` steps of the flow: length of the interval, and transition from the start to the
end of the interval.  Forward, the flow starts at the first time; backward, it starts at the last
time and goes through the matrices from the last one on. -/
def flowSteps (n : Nat) (reverse : Bool) (Ms : List (Mat K)) (ts : List K) (m : Nat) : List (K × Mat K) :=
  if reverse then (List.range m).map fun k =>
    (ts.getD (Ms.length - k) 0 - ts.getD (Ms.length - k - 1) 0, prod n (Ms.reverse.take (k + 1)))
  else (List.range m).map fun k => (ts.getD (k + 1) 0 - ts.getD k 0, prod n (Ms.take (k + 1)))

/-- `k` is the position of the last time reached at time `t`, or the first position if the
flow has not started at `t`. -/
def LastReached (reverse : Bool) (us : List K) (t : K) (k : Nat) : Prop :=
  k < us.length ∧
    if reverse then (t ≤ us.getD k 0 ∨ k = 0 ∧ us.getD 0 0 < t) ∧ ∀ j < us.length, t ≤ us.getD j 0 → us.getD k 0 ≤ us.getD j 0
    else (us.getD k 0 ≤ t ∨ k = 0 ∧ t < us.getD 0 0) ∧ ∀ j < us.length, us.getD j 0 ≤ t → us.getD j 0 ≤ us.getD k 0

/-- Symmetric, with zero row sums, and positive semidefinite. -/
def Covariance (n : Nat) (A : Mat K) : Prop :=
  (∀ i < n, ∀ j < n, A i j = A j i) ∧ (∀ i < n, ∑ j ∈ Finset.range n, A i j = 0) ∧
    ∀ x : Nat → K, 0 ≤ ∑ i ∈ Finset.range n, ∑ j ∈ Finset.range n, x i * A i j * x j

end Verif.Flow
