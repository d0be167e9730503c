import Verif.StaticSparse.Model
import Verif.Static.Lemmas
import Verif.Csr.Lemmas
import Verif.Autocov.Spec

/-!
# Vocabulary for the clustering of sparse static networks
-/

namespace Verif.StaticSparse

open Verif.Csr
open Verif.Trans (Mat eye)

variable {K : Type} [Field K] [LinearOrder K] [IsStrictOrderedRing K]

/-- The csr matrix `T` stores the matrix `M`: one entry for each place that is not zero. -/
structure Stored (n : Nat) (M : Mat K) (T : Csr K) : Prop where
  wf : T.WF
  rows : T.nrows = n
  cols : T.ncols = n
  once : T.NoRepeats
  val : ∀ i < n, ∀ j < n, T.val i j = M i j
  nonzero : ∀ i < n, ∀ e ∈ T.row i, e.2 ≠ 0

/-- No edge ends at the node `z`. -/
def NoEdge (n : Nat) (A : Mat K) (z : Nat) : Prop := ∀ j < n, A z j = 0 ∧ A j z = 0

/-- The exponential keeps what the walk keeps: stationary distributions and detailed balance. -/
structure Keeps (n : Nat) (E : Mat K → Mat K) : Prop where
  stationary : ∀ (p : Nat → K) (M : Mat K) (t : K), Verif.Static.Stationary n p M →
    Verif.Static.Stationary n p (E fun i j => -t * (eye i j - M i j))
  balanced : ∀ (p : Nat → K) (M : Mat K) (t : K), Verif.Static.Balanced n p M →
    Verif.Static.Balanced n p (E fun i j => -t * (eye i j - M i j))

end Verif.StaticSparse
