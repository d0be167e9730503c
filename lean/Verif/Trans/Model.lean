import Verif.TempNet.Model

/-!
# Model of the transition matrices of a temporal network

Matrices are modelled by their values, `Nat → Nat → K` on the indices below `n`; the sparse
formats and their products, differences and normalisation are the subject of C11 to C15.
The matrix exponential is a parameter `E`.
-/

set_option linter.dupNamespace false

namespace Verif.Trans

open Verif.TempNet

variable {K : Type} [Field K] [LinearOrder K] [IsStrictOrderedRing K]

/-- A square matrix, by its values. -/
abbrev Mat (K : Type) := Nat → Nat → K

/-- `eye(num_nodes)`. -/
def eye : Mat K := fun i j => if i = j then 1 else 0

/-- `A @ B`. -/
def mul (n : Nat) (A B : Mat K) : Mat K := fun i j => ∑ k ∈ Finset.range n, A i k * B k j

/-- `inplace_csr_row_normalize(X)` (sparse_stoch_mat.py:537-582): rows that sum to zero are
skipped. -/
def rowNormalize (n : Nat) (A : Mat K) : Mat K := fun i j =>
  if ∑ k ∈ Finset.range n, A i k = 0 then A i j else A i j / ∑ k ∈ Finset.range n, A i k

/-- Largest absolute value, `np.abs([data.min(), data.max()]).max()`
(temporal_network.py:2659).  Entries that are not stored are zero and do not change it. -/
def maxAbs (n : Nat) (A : Mat K) : K :=
  (List.range n).foldl (fun m i => (List.range n).foldl (fun m j => max m |A i j|) m) 0

/-- `set_to_zeroes(M, tol)` with its defaults `relative=True, use_absolute_value=False`
(temporal_network.py:2646-2666). -/
def setToZeroes (n : Nat) (tol : K) (A : Mat K) : Mat K := fun i j =>
  if A i j ≤ tol * maxAbs n A then 0 else A i j

/-- `getnnz() == 0` (temporal_network.py:1421).  A matrix with stored zeros only goes
through `expm`, which also gives the identity. -/
def noEntries (n : Nat) (A : Mat K) : Bool :=
  (List.range n).all fun i => (List.range n).all fun j => decide (A i j = 0)

/-- `np.median(np.diff(times))` (temporal_network.py:1392); there is no median of an empty
array. -/
def median (l : List K) : Option K :=
  let s := l.insertionSort (· ≤ ·)
  if s.length = 0 then none
  else if s.length % 2 = 1 then s[s.length / 2]?
  else
    match s[s.length / 2 - 1]?, s[s.length / 2]? with
    | some a, some b => some ((a + b) / 2)
    | _, _ => none

/-- `np.diff(times)`. -/
def gaps : List K → List K
  | a :: b :: r => (b - a) :: gaps (b :: r)
  | _ => []

/-- The default rate (temporal_network.py:1389-1392). -/
def defaultRate (times : List K) : Option K := (median (gaps times)).map fun m => 1 / m

/-- One inter-event transition matrix (temporal_network.py:1412-1427) from `t` to `t'`. -/
def interMat (n : Nat) (E : Mat K → Mat K) (lamda : K) (fixTau : Bool) (L : Mat K) (t t' : K) : Mat K :=
  let tau := if fixTau then 1 else t' - t
  if noEntries n L then eye else E fun i j => -tau * lamda * L i j

/-- The list computed by `compute_inter_transition_matrices` for a new rate
(temporal_network.py:1400-1437), with `use_sparse_stoch=False`. -/
def interMats (n : Nat) (E : Mat K → Mat K) (times : List K) (laps : Laps K) (lamda : K) (fixTau : Bool) :
    List (Mat K) :=
  let r := ((times.take laps.kStop).drop laps.kStart).zipIdx.map fun (tk, k) =>
    interMat n E lamda fixTau (laps.laplacians.getD k eye) tk (times.getD (laps.kStart + k + 1) 0)
  if r.length = 0 then [eye] else r

/-- Cleaning of an inter-event matrix when a tolerance is given
(temporal_network.py:1605-1607, 1631-1633). -/
def clean (n : Nat) (tol : Option K) (A : Mat K) : Mat K :=
  match tol with
  | none => A
  | some t => rowNormalize n (setToZeroes n t A)

/-- A product after rounding and normalisation (temporal_network.py:1639-1643). -/
def finish (n : Nat) (tol : Option K) (A : Mat K) : Mat K :=
  match tol with
  | none => rowNormalize n A
  | some t => rowNormalize n (setToZeroes n t A)

/-- First index and the indices of the loop (temporal_network.py:1586-1592). -/
def order (reverse : Bool) (len : Nat) : Nat × List Nat :=
  if reverse then (len - 1, (List.range (len - 1)).reverse) else (0, List.range' 1 (len - 1))

/-- `save_intermediate=True` (temporal_network.py:1595-1643). -/
def cumulative (n : Nat) (reverse : Bool) (tol : Option K) (ms : List (Mat K)) : List (Mat K) :=
  let o := order reverse ms.length
  let T0 := clean n tol (ms.getD o.1 eye)
  o.2.foldl (fun acc k => acc ++ [finish n tol (mul n (acc.getLastD eye) (clean n tol (ms.getD k eye)))]) [T0]

/-- `save_intermediate=False` (temporal_network.py:1608-1616, 1644-1650). -/
def cumulativeLast (n : Nat) (reverse : Bool) (tol : Option K) (ms : List (Mat K)) : Mat K :=
  let o := order reverse ms.length
  o.2.foldl (fun T k => finish n tol (mul n T (clean n tol (ms.getD k eye))))
    (clean n tol (ms.getD o.1 eye))

/-! ## The attributes of the network object -/

/-- Errors of the methods. -/
inductive Err
  | laplacian (e : TempNet.Err)
  /-- `raise Exception("Compute inter_T first.")` -/
  | interFirst
  | keyError
  deriving DecidableEq

/-- A value of the dictionary `self.T`. -/
inductive TVal (K : Type)
  | list (l : List (Mat K))
  | last (M : Mat K)

/-- The attributes `laplacians` with its window, `inter_T` and `T`. -/
structure State (K : Type) where
  laps : Option (Laps K)
  interT : List (K × List (Mat K))
  T : List (K × TVal K)

/-- After the constructor. -/
def State.fresh : State K := ⟨none, [], []⟩

/-- A network: number of nodes, events, row order and matrix exponential. -/
structure Env (K : Type) where
  n : Nat
  events : List (Event Nat K)
  startFirst : Nat → Bool
  E : Mat K → Mat K

/-- The methods. -/
inductive Op (K : Type)
  | laplacians (tStart tStop : Option K)
  | inter (lamda : K) (fixTau : Bool) (tStart tStop : Option K)
  | trans (lamda : K) (reverse : Bool) (tol : Option K) (saveIntermediate : Bool)

/-- `compute_laplacian_matrices`: the attributes are replaced
(temporal_network.py:1184-1325). -/
def State.laplacians (env : Env K) (s : State K) (tStart tStop : Option K) : Except Err (State K) :=
  match computeLaplacians env.n env.events env.startFirst tStart tStop with
  | .error e => .error (.laplacian e)
  | .ok L => .ok { s with laps := some L }

/-- `if not hasattr(self, "laplacians")` (temporal_network.py:1383-1384). -/
def State.ensureLaps (env : Env K) (s : State K) (tStart tStop : Option K) : Except Err (State K × Laps K) :=
  match s.laps with
  | some L => .ok (s, L)
  | none =>
    match computeLaplacians env.n env.events env.startFirst tStart tStop with
    | .error e => .error (.laplacian e)
    | .ok L => .ok ({ s with laps := some L }, L)

/-- `compute_inter_transition_matrices` (temporal_network.py:1328-1448). -/
def State.inter (env : Env K) (s : State K) (lamda : K) (fixTau : Bool) (tStart tStop : Option K) :
    Except Err (State K) :=
  match s.ensureLaps env tStart tStop with
  | .error e => .error e
  | .ok (s, L) =>
    match s.interT.lookup lamda with
    | some _ => .ok s
    | none => .ok { s with
        interT := (lamda, interMats env.n env.E (timesOf env.events) L lamda fixTau) :: s.interT }

/-- Replace the value of a key. -/
def setKey {V : Type} (d : List (K × V)) (k : K) (v : V) : List (K × V) :=
  d.map fun p => if p.1 = k then (p.1, v) else p

/-- `compute_transition_matrices` (temporal_network.py:1569-1659), with `force_csr=False`.
The inter-event matrices are cleaned in place when a tolerance is given. -/
def State.trans (env : Env K) (s : State K) (lamda : K) (reverse : Bool) (tol : Option K) (save : Bool) :
    Except Err (State K) :=
  match s.interT.lookup lamda with
  | none => .error .interFirst
  | some ms =>
    match s.T.lookup lamda with
    | some _ => .ok s
    | none =>
      .ok { s with
        interT := setKey s.interT lamda (ms.map (clean env.n tol))
        T := (lamda, if save then .list (cumulative env.n reverse tol ms)
          else .last (cumulativeLast env.n reverse tol ms)) :: s.T }

/-- One call. -/
def State.step (env : Env K) (s : State K) : Op K → Except Err (State K)
  | .laplacians a b => s.laplacians env a b
  | .inter l f a b => s.inter env l f a b
  | .trans l r t v => s.trans env l r t v

/-- A sequence of calls on a new network. -/
def run (env : Env K) (ops : List (Op K)) : Except Err (State K) :=
  ops.foldlM (State.step env) State.fresh

/-! ## Saving as differences -/

/-- What a file saved with `save_delta` holds for one rate (temporal_network.py:521-526). -/
structure Saved (K : Type) where
  first : Mat K
  deltas : List (Mat K)

/-- `inter_T[k+1] - inter_T[k]` (temporal_network.py:1861-1863). -/
def deltas : List (Mat K) → List (Mat K)
  | A :: B :: r => (fun i j => B i j - A i j) :: deltas (B :: r)
  | _ => []

/-- `set_to_zeroes` when `round_zeros`. -/
def roundIf (n : Nat) (round : Option K) (A : Mat K) : Mat K :=
  match round with
  | none => A
  | some tol => setToZeroes n tol A

/-- `save_inter_T(lamda, save_delta=True)` on an object whose differences were not computed
before (temporal_network.py:491-526, 1853-1867); `round` is the tolerance when
`round_zeros`.  Line 492 looks up `lamda` before `None` is replaced by all rates. -/
def saveDelta (n : Nat) (interT : List (K × List (Mat K))) (lamda : Option K) (round : Option K) :
    Except Err (Saved K) :=
  match lamda with
  | none => .error .keyError
  | some l =>
    match interT.lookup l with
    | none => .error .keyError
    | some ms =>
      match ms with
      | [] => .error .keyError
      | M :: _ => .ok ⟨roundIf n round M, (deltas ms).map (roundIf n round)⟩

/-- `load_inter_T` (temporal_network.py:749-754). -/
def loadDelta (f : Saved K) : List (Mat K) :=
  f.deltas.foldl (fun acc d => acc ++ [fun i j => acc.getLastD eye i j + d i j]) [f.first]

/-! ## Linear approximation -/

/-- `lin_approx_trans_matrix` (temporal_network.py:2164-2218). -/
def linApprox (T Pi : Mat K) (t tS : K) : Option (Mat K) :=
  if t < 0 then none
  else if t ≤ 1 then some fun i j => (1 - t) * eye i j + t * T i j
  else if t < tS then some fun i j => 1 / (1 - tS) * (T i j * (t - tS) + Pi i j * (1 - t))
  else some Pi

/-- `compute_stationary_transition` (temporal_network.py:2221-2273); `lab` are the labels
returned by `connected_components`, the degree is the number of nonzero entries. -/
def degs (n : Nat) (T : Mat K) (i : Nat) : Nat := ((List.range n).filter fun j => decide (T i j ≠ 0)).length

/-- `cmp_degs / cmp_degs.sum()` at the indices of the component of the row, 0 elsewhere. -/
def stationary (n : Nat) (lab : Nat → Nat) (T : Mat K) : Mat K := fun i j =>
  if lab j = lab i then
    (degs n T j : K) / (((List.range n).filter fun k => decide (lab k = lab i)).map fun k => (degs n T k : K)).sum
  else 0

end Verif.Trans
