import Verif.Trans.Spec
import Verif.Autocov.Model
import Verif.Louvain.Model

/-!
# Model of `static_clustering` and `run_multi_louvain`

Matrices are modelled by their values; numbers are exact.  The matrix exponential is a
parameter `E` (`scipy.linalg.expm`; for csr matrices `sparse_lapl_expm`, whose versions all
return the exponential, C60), the eigenvalue solver is a parameter `eig`.  The sparse and the
dense class compute the same clustering if every node has an edge (C69, C110), so one object
stands for both; sparse networks with isolated nodes are the subject of `Verif.StaticSparse`.
-/

set_option linter.dupNamespace false

namespace Verif.Static

open Verif.Trans Verif.Louvain

variable {K : Type} [Field K] [LinearOrder K] [IsStrictOrderedRing K]

/-- What stops `static_clustering`.  `notANumber` is no Python exception: the function returns
an object whose probabilities and covariance are NaN or infinite after a division by zero. -/
inductive SErr where
  | valueError | assertionError | notANumber | clustering (e : Verif.Partition.Err)
  deriving DecidableEq

/-- The argument `t` (network_clustering.py:2377): a Python `int` or any other number
(`float`, or a numpy number, which is no `int` either).  Negative powers are not modelled. -/
inductive Time (K : Type) where
  | int (t : Nat)
  | num (t : K)

/-- The value of `t`. -/
def Time.val : Time K → K
  | .int t => (t : K)
  | .num t => t

/-- Eigenvalue and eigenvector of `eigs(..., k=1)` or the first ones of `numpy.linalg.eig`,
with real and imaginary parts (network_clustering.py:2451, 2460). -/
structure EigPair (K : Type) where
  wr : K
  wi : K
  vr : Nat → K
  vi : Nat → K

/-- `degs` (network_clustering.py:2430). -/
def degs (n : Nat) (A : Mat K) (i : Nat) : K := ∑ j ∈ Finset.range n, A i j

/-- `degs_m1` (network_clustering.py:2432-2434). -/
def degsM1 (n : Nat) (A : Mat K) (i : Nat) : K := 1 / (if degs n A i = 0 then 1 else degs n A i)

/-- `A_sl` (network_clustering.py:2437-2439): the two masks select diagonal entries. -/
def withLoops (n : Nat) (A : Mat K) : Mat K := fun i j =>
  if i = j ∧ degs n A i = 0 then 1 else A i j

/-- `Tstat` (network_clustering.py:2441). -/
def tstat (n : Nat) (A : Mat K) : Mat K := fun i j => degsM1 n A i * withLoops n A i j

/-- `M.__pow__(n)` and `numpy.linalg.matrix_power(M, n)` (network_clustering.py:2420, 2425);
the order in which the factors are multiplied does not matter for exact numbers. -/
def power (n : Nat) (M : Mat K) : Nat → Mat K
  | 0 => eye
  | k + 1 => mul n (power n M k) M

/-- `pi` (network_clustering.py:2445-2468).  The test that the modulus of the eigenvalue is
close to one is modelled as an equality of its square. -/
def stationary (eig : Mat K → EigPair K) (n : Nat) (A : Mat K) (directed : Bool) :
    Except SErr (Nat → K) :=
  let total := ∑ i ∈ Finset.range n, degs n A i
  if total = 0 then .error .valueError
  else if directed then
    let r := eig fun i j => tstat n A j i
    if r.wr * r.wr + r.wi * r.wi = 1 then
      let s := ∑ i ∈ Finset.range n, r.vr i
      if s = 0 then .error .notANumber
      else .ok fun i => r.vr i / s
    else .error .assertionError
  else .ok fun i => degs n A i / total

/-- `T` (network_clustering.py:2471-2488). -/
def transition (E : Mat K → Mat K) (n : Nat) (A : Mat K) (t : Time K)
    (discrete linearized : Bool) : Mat K :=
  let linear : Mat K := fun i j => eye i j - t.val * (eye i j - tstat n A i j)
  let expo : Mat K := E fun i j => -t.val * (eye i j - tstat n A i j)
  match discrete, t with
  | true, .int k => power n (tstat n A) k
  | _, _ => if linearized then linear else expo

/-- `static_clustering` (network_clustering.py:2377-2493), for an array or csr matrix `A`. -/
def staticClustering (E : Mat K → Mat K) (eig : Mat K → EigPair K) (n : Nat) (A : Mat K)
    (t : Time K) (discrete linearized directed : Bool) : Except SErr (Clu K) :=
  match stationary eig n A directed with
  | .error e => .error e
  | .ok p =>
    let T := transition E n A t discrete linearized
    match mkClu n T (Verif.Autocov.computeS p p T none) .none with
    | .error e => .error (.clustering e)
    | .ok c => .ok c

/-- One pass of the loop of `run_multi_louvain` (network_clustering.py:2533-2547): a new object
with the matrices of the given one and its own random numbers, the number of loops, its list
of clusters and its stability. -/
def oneRun (sc : Sched) (par : Params K) (c : Clu K) :
    Except Verif.Partition.Err (Nat × List (Finset Nat) × K) :=
  match mkClu c.n c.T c.S .none with
  | .error e => .error e
  | .ok d =>
    match findLouvain sc par d with
    | .error e => .error e
    | .ok (k, p) => .ok (k, p.clusters, stability c.S p)

/-- `run_multi_louvain` (network_clustering.py:2503-2550): the seeds are those of the random
numbers `sc`; the three lists are returned as one list of triples. -/
def runMulti (par : Params K) (c : Clu K) :
    List Sched → Except Verif.Partition.Err (List (Nat × List (Finset Nat) × K))
  | [] => .ok []
  | sc :: l =>
    match oneRun sc par c with
    | .error e => .error e
    | .ok r =>
      match runMulti par c l with
      | .error e => .error e
      | .ok rs => .ok (r :: rs)

end Verif.Static
