import Verif.Louvain.Model
import Verif.Autocov.Model
import Mathlib.Data.Finset.Dedup

/-!
# Model of the sparse symmetric clustering

Class `SparseClustering` (`src/flowstab/network_clustering.py:1480-1751`), which keeps the
covariance as a `SparseAutocovMat`, with the Louvain loops it inherits from `Clustering`
and `BaseClustering` (`network_clustering.py:888-992, 1221-1477`).  The stored covariance
is the model of `Verif.Autocov`, the partition that of `Verif.Partition`.

`self.T`, `self.p1` and `self.p2` are not used once the covariance is given and are left
out; a covariance computed from `T` is `Verif.Autocov.fromT`.
-/

namespace Verif.SparseLouvain

open Verif.Partition Verif.Autocov
open Verif.Louvain (Sched Params getCluster potentialNewClusters listSet updatePart)

variable {K : Type} [Field K] [LinearOrder K] [IsStrictOrderedRing K]

/-- Exceptions: those of the partition, or the unchecked read of the gain routines. -/
inductive SErr where
  | part (e : Verif.Partition.Err)
  | read
deriving DecidableEq, Repr

/-- A `SparseClustering` object (network_clustering.py:1528-1620). -/
structure SClu (K : Type) where
  A : Autocov K
  part : Part

/-- `SparseClustering(S=A, cluster_list=...)` (network_clustering.py:1528-1620): no check of
row sums, unlike the dense constructor. -/
def mkS (A : Autocov K) (arg : Arg) : Except SErr (SClu K) :=
  match mk' A.PT.nrows arg false with
  | .error e => .error (.part e)
  | .ok p => .ok ⟨A, p⟩

/-- `_neighs[node]` (network_clustering.py:1610-1620): the column indices stored in the row
`node` of `PT` and the row indices stored in its column `node`. -/
def sneighs (A : Autocov K) (node : Nat) : Finset Nat :=
  ((A.PT.row node).map Prod.fst ++ (A.PTcsc.row node).map Prod.fst).toFinset

/-- `_compute_clustered_autocov` (network_clustering.py:1650-1675): the diagonal. -/
def sClusteredAutocov (A : Autocov K) (p : Part) : List K :=
  p.clusters.map fun c => if 0 < c.card then A.submatSum (listSet c) (listSet c) else 0

/-- `compute_stability` (network_clustering.py:1636-1648). -/
def sStability (A : Autocov K) (p : Part) : K := (sClusteredAutocov A p).sum

/-- `_compute_delta_stab_moveto` (network_clustering.py:1677-1698).  The set is listed in
increasing order. -/
def sDeltaTo (A : Autocov K) (p : Part) (k : Nat) (cf : Int) : Except SErr K :=
  match getCluster p cf with
  | .error e => .error (.part e)
  | .ok c =>
    if k ∈ c then .error (.part .valueError)
    else match A.deltaTo k (listSet c) with
      | .error _ => .error .read
      | .ok d => .ok d

/-- `_compute_delta_stab_moveout` (network_clustering.py:1701-1723). -/
def sDeltaOut (A : Autocov K) (p : Part) (k : Nat) (ci : Int) : Except SErr K :=
  match getCluster p ci with
  | .error e => .error (.part e)
  | .ok c =>
    if k ∉ c then .error (.part .valueError)
    else match A.deltaOut k (listSet c) with
      | .error _ => .error .read
      | .ok d => .ok d

/-- The loop over candidate clusters (network_clustering.py:1271-1290). -/
def sScan (A : Autocov K) (p : Part) (node : Nat) (ci : Int) (rOut : K) :
    List Int → K → Int → Except SErr (K × Int)
  | [], best, c => .ok (best, c)
  | cf :: l, best, c =>
    if cf ≠ ci then
      match sDeltaTo A p node cf with
      | .error e => .error e
      | .ok rIn =>
        if best ≤ rOut + rIn then sScan A p node ci rOut l (rOut + rIn) cf
        else sScan A p node ci rOut l best c
    else sScan A p node ci rOut l best c

/-- Body of the loop over nodes (network_clustering.py:1252-1305, 1333-1346). -/
def sVisit (A : Autocov K) (it : Finset Int → List Int) (p : Part) (node : Nat) :
    Except SErr (K × Part) :=
  match p.dict node with
  | none => .error (.part .keyError)
  | some ci =>
    match sDeltaOut A p node ci with
    | .error e => .error e
    | .ok rOut =>
      match potentialNewClusters p (sneighs A node) node with
      | .error e => .error (.part e)
      | .ok comms =>
        match sScan A p node ci rOut (it comms) 0 ci with
        | .error e => .error e
        | .ok (best, c) =>
          if c ≠ ci then
            match moveNode p node c with
            | (some e, _) => .error (.part e)
            | (none, p') => .ok (best, p')
          else .ok (0, p)

/-- One pass over the nodes (network_clustering.py:1252-1305). -/
def sSweep (A : Autocov K) (it : Nat → Finset Int → List Int) :
    List Nat → K → Part → Except SErr (K × Part)
  | [], d, p => .ok (d, p)
  | v :: l, d, p =>
    match sVisit A (it v) p v with
    | .error e => .error e
    | .ok (g, p') => sSweep A it l (d + g) p'

/-- The `while` loop of `_louvain_move_nodes` (network_clustering.py:1228-1331). -/
def sMoveLoop (sc : Sched) (m : Nat) (thr : K) (nSub : Nat) (A : Autocov K) :
    (steps : Nat) → (nLoop : Nat) → (dLoop dTot : K) → Part → Except SErr (K × Nat × Part)
  | 0, _, _, _, _ => .error (.part .outOfSteps)
  | steps + 1, nLoop, dLoop, dTot, p =>
    if thr < dLoop ∧ nLoop < nSub then
      match sSweep A (sc.listing m nLoop) (sc.order m nLoop A.PT.nrows) 0 p with
      | .error e => .error e
      | .ok (d, p') => sMoveLoop sc m thr nSub A steps (nLoop + 1) d (dTot + d) p'
    else .ok (dTot, nLoop, removeEmpty p)

/-- `_louvain_move_nodes` (network_clustering.py:1221-1331). -/
def sMoveNodes (sc : Sched) (m : Nat) (thr : K) (nSub : Nat) (c : SClu K) (steps : Nat) :
    Except SErr (K × Nat × Part) :=
  sMoveLoop sc m thr nSub c.A steps 1 1 0 c.part

/-- `_aggregate_clusters` followed by the construction of the new clustering
(network_clustering.py:1725-1747, 966-967). -/
def sAggregate (A : Autocov K) (p : Part) : Except SErr (SClu K) :=
  if p.clusters.length = A.PT.nrows then mkS A .none
  else mkS (A.aggregate (p.clusters.map listSet)) .none

/-- The `while` loop of `find_louvain_clustering` (network_clustering.py:925-990). -/
def sMetaLoop (sc : Sched) (par : Params K) (A : Autocov K) :
    (steps : Nat) → (nMetaLoop : Nat) → (delta : K) → (stop : Bool) → (self : Part) →
    (mc : SClu K) → Except SErr (Nat × Part)
  | 0, _, _, _, _, _ => .error (.part .outOfSteps)
  | steps + 1, nMetaLoop, delta, stop, self, mc =>
    if delta ≤ par.thr ∨ stop = true ∨ par.nMeta < nMetaLoop then .ok (nMetaLoop, self)
    else
      let k := nMetaLoop + 1
      match sMoveNodes sc k par.thr par.nSub mc (par.nSub + 1) with
      | .error e => .error e
      | .ok (d, _, mp) =>
        match updatePart self mp with
        | .error e => .error (.part e)
        | .ok self' =>
          if (∀ c ∈ self'.clusters, c.card = 1) ∨ par.nMeta < k ∨ d ≤ par.thr then
            sMetaLoop sc par A steps k d true self' { mc with part := removeEmpty mp }
          else
            match sAggregate A self' with
            | .error e => .error e
            | .ok mc' => sMetaLoop sc par A steps k d false self' mc'

/-- `find_louvain_clustering` (network_clustering.py:888-992, 1749-1751) of a
`SparseClustering`. -/
def sFindLouvain (sc : Sched) (par : Params K) (c : SClu K) : Except SErr (Nat × Part) :=
  if c.A.isAllZeros then
    match mk' c.A.PT.nrows (.clusterList [Finset.range c.A.PT.nrows]) false with
    | .error e => .error (.part e)
    | .ok p => .ok (0, p)
  else
    match mkS c.A (.clusterList c.part.clusters) with
    | .error e => .error e
    | .ok mc => sMetaLoop sc par c.A (par.nMeta + 3) 0 1 false c.part mc

end Verif.SparseLouvain
