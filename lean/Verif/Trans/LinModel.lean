import Verif.Trans.SubModel

/-!
# Model of the linear approximations of the inter-event matrices
-/

set_option linter.dupNamespace false

namespace Verif.Trans

open Verif.TempNet

variable {K : Type} [Field K] [LinearOrder K] [IsStrictOrderedRing K]

/-- `I - L`. -/
def discrete (L : Mat K) : Mat K := fun i j => eye i j - L i j

/-- `_compute_stationary_transition` (temporal_network.py:1742-1779), with
`use_sparse_stoch=False`; `comps` are the labels of `connected_components`. -/
def stationaries (n : Nat) (comps : Mat K → Nat → Nat) (laps : Laps K) : List (Mat K) :=
  laps.laplacians.map fun L => stationary n (comps (discrete L)) (discrete L)

/-- Errors of the method. -/
inductive LinErr
  | laplacian (e : TempNet.Err)
  /-- `self._stationary_trans[k]` -/
  | indexError
  /-- `raise ValueError("t must be >= 0")` -/
  | negative
  /-- `.append` on a dictionary -/
  | attributeError
  deriving DecidableEq

/-- `sparse_lin_approx` (temporal_network.py:2569-2615): interpolation on the rows and columns
with a stored entry, identity elsewhere. -/
def sparseLinApprox (idx : List Nat) (T Pi : Mat K) (t tS : K) : Option (Mat K) :=
  (linApprox (sub idx T) (sub idx Pi) t tS).map (expand idx)

/-- Attributes: Laplacians, stationary matrices and linear inter-event matrices. -/
structure LinState (K : Type) where
  laps : Option (Laps K)
  pis : Option (List (Mat K))
  interLin : List ((K × K) × List (Mat K))

/-- After the constructor. -/
def LinState.fresh : LinState K := ⟨none, none, []⟩

/-- What the methods depend on. -/
structure LinEnv (K : Type) where
  n : Nat
  events : List (Event Nat K)
  startFirst : Nat → Bool
  comps : Mat K → Nat → Nat
  /-- Stored entries of a Laplacian. -/
  stored : Mat K → Nat → Nat → Bool

/-- `compute_laplacian_matrices`: the stationary matrices are not touched
(temporal_network.py:1184-1325). -/
def LinState.laplacians (env : LinEnv K) (s : LinState K) (tStart tStop : Option K) :
    Except LinErr (LinState K) :=
  match computeLaplacians env.n env.events env.startFirst tStart tStop with
  | .error e => .error (.laplacian e)
  | .ok L => .ok { s with laps := some L }

/-- `if not hasattr(self, "_stationary_trans")` (temporal_network.py:1475-1479, 1746-1748). -/
def LinState.ensure (env : LinEnv K) (s : LinState K) (tStart tStop : Option K) :
    Except LinErr (LinState K × Laps K × List (Mat K)) :=
  match s.pis, s.laps with
  | some P, some L => .ok (s, L, P)
  | _, some L => .ok ({ s with pis := some (stationaries env.n env.comps L) }, L,
      stationaries env.n env.comps L)
  | _, none =>
    match computeLaplacians env.n env.events env.startFirst tStart tStop with
    | .error e => .error (.laplacian e)
    | .ok L => .ok ({ s with laps := some L, pis := some (stationaries env.n env.comps L) }, L,
        stationaries env.n env.comps L)

/-- One matrix (temporal_network.py:1521-1549). -/
def linMat (env : LinEnv K) (times : List K) (L : Laps K) (P : List (Mat K)) (lamda tS : K) (fixTau sparse : Bool)
    (p : K × Nat) : Except LinErr (Mat K) :=
  let tau := if fixTau then 1 else times.getD (L.kStart + p.2 + 1) 0 - p.1
  let Lk := L.laplacians.getD p.2 eye
  match P[p.2]? with
  | none => .error .indexError
  | some Pi =>
    match (if sparse then sparseLinApprox (keptIndices env.n (env.stored Lk)) (discrete Lk) Pi (tau * lamda) tS
      else linApprox (discrete Lk) Pi (tau * lamda) tS) with
    | none => .error .negative
    | some M => .ok M

/-- The list of matrices (temporal_network.py:1509-1560). -/
def linMats (env : LinEnv K) (L : Laps K) (P : List (Mat K)) (lamda tS : K) (fixTau sparse : Bool) :
    Except LinErr (List (Mat K)) :=
  let times := timesOf env.events
  match (((times.take L.kStop).drop L.kStart).zipIdx).mapM (linMat env times L P lamda tS fixTau sparse) with
  | .error e => .error e
  | .ok ms => if ms.length = 0 then (if sparse then .error .attributeError else .ok [eye]) else .ok ms

/-- `compute_lin_inter_transition_matrices` (temporal_network.py:1450-1565). -/
def LinState.inter (env : LinEnv K) (s : LinState K) (lamda tS : K) (fixTau sparse : Bool)
    (tStart tStop : Option K) : Except LinErr (LinState K) :=
  match s.ensure env tStart tStop with
  | .error e => .error e
  | .ok (s, L, P) =>
    match s.interLin.lookup (lamda, tS) with
    | some _ => .ok s
    | none =>
      match linMats env L P lamda tS fixTau sparse with
      | .error e => .error e
      | .ok ms => .ok { s with interLin := ((lamda, tS), ms) :: s.interLin }

end Verif.Trans
