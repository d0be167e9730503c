import Verif.TempNet.Model
import Verif.Trans.Model
import Verif.Trans.Expm
import Verif.Flow.Model
import Verif.EndToEnd.Model

/-!
# From contacts to the covariance of the flow

Composition of functions that are modelled elsewhere, without the state kept by the classes
(see `EndToEnd` for the calls in a session).
-/

set_option linter.dupNamespace false

namespace Verif.Average

open Verif.TempNet Verif.Trans Verif.Flow

variable {L : Type} [LinearOrder L]

/-- The covariance `I_list[0]` that `FlowIntegralClustering.find_louvain_clustering` clusters
(network_clustering.py:2120-2146) after `ContTempNetwork(...)` (temporal_network.py:96-226),
`compute_laplacian_matrices` (temporal_network.py:1086-1326) and
`compute_inter_transition_matrices` with the rate `1 / scale` (temporal_network.py:1328-1448),
on dense matrices with the default start and grid (flow_stability.py:648-676), or nothing if an
exception is raised.  `sf` is the order of rows with equal times. -/
noncomputable def computedFlow (sf : Nat → Bool) (evs : List (Event L ℝ)) (scale : ℝ) (reverse : Bool) : Option (Mat ℝ) :=
  let net := ofEvents evs
  let n := net.numNodes
  match computeLaplacians n net.events sf none none with
  | .error _ => none
  | .ok laps =>
    let inp : Input ℝ :=
      { n := n, sparse := false, mats := some (.inter (interMats n (expm n) (timesOf net.events) laps (1 / scale) false)),
        p1 := none, times := some (timesOf net.events), grid := none, reverse := reverse, rtol := 1 / 10 ^ 8, mkl := false,
        sqrt := Real.sqrt }
    match construct inp with
    | .error _ => none
    | .ok o =>
      match clusterInput inp o 0 with
      | .error _ => none
      | .ok (_, S) => some S

end Verif.Average
