import Verif.FlowStability.Model
import Verif.Trans.Expm
import Verif.Flow.Model
import Verif.Louvain.Model
import Mathlib.Analysis.Real.Sqrt

/-!
# Model of the whole pipeline

`FlowStability` (`Verif.FlowStability.Model`) leaves open what the temporal network and the flow
clustering compute.  Here these are the models of `ContTempNetwork` (`Verif.TempNet.Model`,
`Verif.Trans.Model`), `FlowIntegralClustering` (`Verif.Flow.Model`) and `Clustering`
(`Verif.Louvain.Model`), with real numbers and the matrix exponential of mathlib.  Time scales
are rational numbers, as in `Verif.FlowStability.Model`.
-/

set_option linter.dupNamespace false

namespace Verif.EndToEnd

open Verif.FlowStability Verif.TempNet Verif.Trans Verif.Louvain

/-- A `ContTempNetwork`: what the constructor sets (temporal_network.py:119-202), and the
attributes `laplacians`, `inter_T` and `T`. -/
structure NetObj (L : Type) where
  net : Net L ℝ
  state : Trans.State ℝ

/-- A `FlowIntegralClustering`: its arguments and what the constructor sets
(network_clustering.py:1802-1935), whether `self.clustering` has the key 0, and
`self.partition.get(0)` (2120-2146).  Only `k=0`, the default of `find_louvain_clustering`, is
modelled. -/
structure FlowObj where
  inp : Flow.Input ℝ
  obj : Flow.Obj ℝ
  clustered : Bool
  partition : Option Partition.Part

/-- Keyword arguments of the steps: none, the events of `set_temporal_network`, or those of
`find_louvain_clustering` together with the random choices made.  Other keywords are not
modelled. -/
inductive Kw (L : Type)
  | none
  | network (evs : List (TempNet.Event L ℝ))
  | louvain (sc : Sched) (par : Params ℝ)

/-- A window boundary passed to `compute_laplacian_matrices` (flow_stability.py:495-497): values
that are not numbers cannot be compared with the times. -/
noncomputable def boundary {N F : Type} : Option (Val N F) → Except Exc (Option ℝ)
  | .none => .ok .none
  | some (.num q) => .ok (some (q : ℝ))
  | some (.int i) => .ok (some (i : ℝ))
  | some _ => .error (.ext false)

variable {L : Type} [LinearOrder L]

/-- The network as `Verif.Trans.Model` sees it. -/
noncomputable def env (sf : Nat → Bool) (N : NetObj L) : Env ℝ :=
  ⟨N.net.numNodes, N.net.events, sf, expm N.net.numNodes⟩

/-- The rate used by `compute_inter_transition_matrices` (temporal_network.py:1389-1392): without
a rate, the inverse of the median inter-event time. -/
noncomputable def rateOf (N : NetObj L) : Option Rat → Option ℝ
  | some q => some (q : ℝ)
  | .none => defaultRate (timesOf N.net.events)

/-- `compute_laplacian_matrices` of the network (temporal_network.py:1141-1326). -/
noncomputable def netLaplacians (sf : Nat → Bool) (N : NetObj L) (a b : Option (Val (NetObj L) FlowObj)) (kw : Kw L) :
    Option Exc × NetObj L :=
  match kw with
  | .none =>
    match boundary a, boundary b with
    | .ok a, .ok b =>
      match N.state.laplacians (env sf N) a b with
      | .error _ => (some (.ext false), N)
      | .ok s => (.none, { N with state := s })
    | _, _ => (some (.ext false), N)
  | _ => (some (.ext false), N)

/-- `compute_inter_transition_matrices` (temporal_network.py:1328-1448), or its linear variant
(1450-1567).  The linear variant stores its matrices in the attribute `inter_T_lin`, which
`FlowStability` does not read and which is left out here; both compute missing Laplacians. -/
noncomputable def netInter (sf : Nat → Bool) (lin : Bool) (N : NetObj L) (lam : Option Rat) (kw : Kw L) :
    Option Exc × NetObj L :=
  match kw with
  | .none =>
    match rateOf N lam with
    | .none => (some (.ext false), N)
    | some l =>
      if lin then
        match N.state.ensureLaps (env sf N) .none .none with
        | .error _ => (some (.ext false), N)
        | .ok (s, _) => (.none, { N with state := s })
      else
        match N.state.inter (env sf N) l false .none .none with
        | .error _ => (some (.ext false), N)
        | .ok s => (.none, { N with state := s })
  | _ => (some (.ext false), N)

/-- `inter_T[_lambda]` exists (flow_stability.py:650): `None` is never a key, because
`compute_inter_transition_matrices` replaces it by the default rate
(temporal_network.py:1389-1395). -/
noncomputable def netHas (N : NetObj L) : Option Rat → Bool
  | .none => false
  | some q => (N.state.interT.lookup (q : ℝ)).isSome

/-- The arguments of `FlowIntegralClustering` (flow_stability.py:648-676): dense matrices of the
rate and all times of the network. -/
noncomputable def flowInput (N : NetObj L) (q : Rat) (rev : Bool) : Flow.Input ℝ where
  n := N.net.numNodes
  sparse := false
  mats := (N.state.interT.lookup (q : ℝ)).map .inter
  p1 := .none
  times := some (timesOf N.net.events)
  grid := .none
  reverse := rev
  rtol := 1 / 10 ^ 8
  mkl := false
  sqrt := Real.sqrt

/-- `FlowIntegralClustering(T_inter_list=..., time_list=..., reverse_time=...)`
(flow_stability.py:656, 672). -/
noncomputable def netFlow (N : NetObj L) (lam : Option Rat) (rev : Bool) (kw : Kw L) : Except Exc FlowObj :=
  match kw, lam with
  | .none, some q =>
    match Flow.construct (flowInput N q rev) with
    | .error .valueError => .error (.ext true)
    | .error _ => .error (.ext false)
    | .ok o => .ok ⟨flowInput N q rev, o, false, .none⟩
  | _, _ => .error (.ext false)

/-- `find_louvain_clustering` of a `FlowIntegralClustering` with `k=0`
(network_clustering.py:2120-2146).  Without arguments it runs with the default limits. -/
noncomputable def flowLouvain (sc0 : Sched) (par0 : Params ℝ) (f : FlowObj) (kw : Kw L) : Option Exc × FlowObj :=
  let run (sc : Sched) (par : Params ℝ) : Option Exc × FlowObj :=
    if f.clustered then (.none, f)
    else
      match Flow.clusterInput f.inp f.obj 0 with
      | .ok (some T, S) =>
        match mkClu f.inp.n T S .none with
        | .error _ => (some (.ext false), f)
        | .ok c =>
          match Louvain.findLouvain sc par c with
          | .error _ => (some (.ext false), { f with clustered := true })
          | .ok (_, p) => (.none, { f with clustered := true, partition := some p })
      | _ => (some (.ext false), f)
  match kw with
  | .none => run sc0 par0
  | .louvain sc par => run sc par
  | .network _ => (some (.ext false), f)

/-- The code behind `FlowStability`: `sf` is the order of rows with equal times, `sc0` and `par0`
are the random choices and default limits of a clustering called without arguments. -/
noncomputable def ext (sf : Nat → Bool) (sc0 : Sched) (par0 : Params ℝ) : Ext (NetObj L) FlowObj (Kw L) where
  mkNet kw := match kw with
    | .network evs => .ok ⟨ofEvents evs, Trans.State.fresh⟩
    | _ => .error (.ext false)
  laplacians := netLaplacians sf
  interT := netInter sf
  hasInterT := netHas
  mkFlow := netFlow
  louvain := flowLouvain sc0 par0

/-- The steps of an analysis, in order (flow_stability.py:246, 477, 500, 624, 684). -/
def steps (evs : List (TempNet.Event L ℝ)) (kw : Kw L) : List (FOp (NetObj L) FlowObj (Kw L)) :=
  [.setTemporalNetwork (some (.network evs)), .computeLaplacians .none, .computeInterT false .none false .none,
   .setFlowClustering .none, .findLouvain kw]

end Verif.EndToEnd
