import Verif.SparseLouvain.Model
import Verif.SparseStoch.Model

/-!
# Model of the sparse clustering with either version of the helper routines

`sparse_stoch_mat.py:44-48` loads the compiled module `_cython_sparse_stoch` or, if the
package `cython` is not found, `_cython_subst.py`.  `Verif.SparseLouvain` models a
`SparseClustering` with the compiled routines.  Here each call of a helper routine depends
on the version.  The replacements in `_cython_subst.py` differ from the compiled routines in

* `get_submat_sum`, `compute_delta_PT_moveto`, `compute_delta_S_moveto`: they ask for
  `idx.shape`, and `SparseClustering` passes objects of type `array.array`, which have no
  such attribute;
* `compute_delta_S_moveout`: it is called `cython_compute_delta_S_moveout` there;
* `aggregate_csr_mat`, `aggregate_csr_mat_2`: they raise `NotImplementedError`.

`_compute_delta_S_moveout` converts the list of indices to a numpy array, so the routine for
two scalars works in both versions.
-/

namespace Verif.Backends

open Verif.Partition Verif.Autocov Verif.SparseLouvain
open Verif.Louvain (Sched Params getCluster potentialNewClusters listSet updatePart)
open Verif.SparseStoch (Backend)

variable {K : Type} [Field K] [LinearOrder K] [IsStrictOrderedRing K]

/-- Exceptions: those that do not depend on the version, a missing attribute, a routine that
is not implemented. -/
inductive BErr
  | sparse (e : SErr)
  | attribute
  | notImplemented
deriving DecidableEq, Repr

/-- `SparseAutocovMat.get_submat_sum` with two `array.array` (sparse_stoch_mat.py:854-873,
`_cython_subst.py:340-360`, pyx 637-662). -/
def bSubmat (be : Backend) (A : Autocov K) (rows cols : List Nat) : Except BErr K :=
  match be with
  | .python => .error .attribute
  | .compiled => .ok (A.submatSum rows cols)

/-- The diagonal of the clustered covariance, cluster by cluster
(network_clustering.py:1650-1675). -/
def bClusteredAutocov (be : Backend) (A : Autocov K) : List (Finset Nat) → Except BErr (List K)
  | [] => .ok []
  | c :: cs =>
    match (if 0 < c.card then bSubmat be A (listSet c) (listSet c) else .ok 0) with
    | .error e => .error e
    | .ok x =>
      match bClusteredAutocov be A cs with
      | .error e => .error e
      | .ok l => .ok (x :: l)

/-- `compute_stability` (network_clustering.py:1636-1648). -/
def bStability (be : Backend) (A : Autocov K) (p : Part) : Except BErr K :=
  match bClusteredAutocov be A p.clusters with
  | .error e => .error e
  | .ok l => .ok l.sum

/-- `_compute_delta_stab_moveto` (network_clustering.py:1677-1698,
sparse_stoch_mat.py:1033-1064, `_cython_subst.py:390-468`). -/
def bDeltaTo (be : Backend) (A : Autocov K) (p : Part) (k : Nat) (cf : Int) : Except BErr K :=
  match getCluster p cf with
  | .error e => .error (.sparse (.part e))
  | .ok c =>
    if k ∈ c then .error (.sparse (.part .valueError))
    else match be with
      | .python => .error .attribute
      | .compiled =>
        match A.deltaTo k (listSet c) with
        | .error _ => .error (.sparse .read)
        | .ok d => .ok d

/-- `_compute_delta_stab_moveout` (network_clustering.py:1701-1723,
sparse_stoch_mat.py:1067-1098, `_cython_subst.py:470-541`). -/
def bDeltaOut (be : Backend) (A : Autocov K) (p : Part) (k : Nat) (ci : Int) : Except BErr K :=
  match getCluster p ci with
  | .error e => .error (.sparse (.part e))
  | .ok c =>
    if k ∉ c then .error (.sparse (.part .valueError))
    else match be, A.w with
      | .python, .vectors _ _ => .error .attribute
      | _, _ =>
        match A.deltaOut k (listSet c) with
        | .error _ => .error (.sparse .read)
        | .ok d => .ok d

/-- The loop over candidate clusters (network_clustering.py:1271-1290). -/
def bScan (be : Backend) (A : Autocov K) (p : Part) (node : Nat) (ci : Int) (rOut : K) :
    List Int → K → Int → Except BErr (K × Int)
  | [], best, c => .ok (best, c)
  | cf :: l, best, c =>
    if cf ≠ ci then
      match bDeltaTo be A p node cf with
      | .error e => .error e
      | .ok rIn =>
        if best ≤ rOut + rIn then bScan be A p node ci rOut l (rOut + rIn) cf
        else bScan be A p node ci rOut l best c
    else bScan be A p node ci rOut l best c

/-- Body of the loop over nodes (network_clustering.py:1252-1305, 1333-1346). -/
def bVisit (be : Backend) (A : Autocov K) (it : Finset Int → List Int) (p : Part) (node : Nat) :
    Except BErr (K × Part) :=
  match p.dict node with
  | none => .error (.sparse (.part .keyError))
  | some ci =>
    match bDeltaOut be A p node ci with
    | .error e => .error e
    | .ok rOut =>
      match potentialNewClusters p (sneighs A node) node with
      | .error e => .error (.sparse (.part e))
      | .ok comms =>
        match bScan be A p node ci rOut (it comms) 0 ci with
        | .error e => .error e
        | .ok (best, c) =>
          if c ≠ ci then
            match moveNode p node c with
            | (some e, _) => .error (.sparse (.part e))
            | (none, p') => .ok (best, p')
          else .ok (0, p)

/-- One pass over the nodes (network_clustering.py:1252-1305). -/
def bSweep (be : Backend) (A : Autocov K) (it : Nat → Finset Int → List Int) :
    List Nat → K → Part → Except BErr (K × Part)
  | [], d, p => .ok (d, p)
  | v :: l, d, p =>
    match bVisit be A (it v) p v with
    | .error e => .error e
    | .ok (g, p') => bSweep be A it l (d + g) p'

/-- The `while` loop of `_louvain_move_nodes` (network_clustering.py:1228-1331). -/
def bMoveLoop (be : Backend) (sc : Sched) (m : Nat) (thr : K) (nSub : Nat) (A : Autocov K) :
    (steps : Nat) → (nLoop : Nat) → (dLoop dTot : K) → Part → Except BErr (K × Nat × Part)
  | 0, _, _, _, _ => .error (.sparse (.part .outOfSteps))
  | steps + 1, nLoop, dLoop, dTot, p =>
    if thr < dLoop ∧ nLoop < nSub then
      match bSweep be A (sc.listing m nLoop) (sc.order m nLoop A.PT.nrows) 0 p with
      | .error e => .error e
      | .ok (d, p') => bMoveLoop be sc m thr nSub A steps (nLoop + 1) d (dTot + d) p'
    else .ok (dTot, nLoop, removeEmpty p)

/-- The result of a call that does not involve a helper routine. -/
def noHelper {α : Type} (r : Except SErr α) : Except BErr α :=
  match r with
  | .error e => .error (.sparse e)
  | .ok a => .ok a

/-- `_aggregate_clusters` followed by the construction of the new clustering
(network_clustering.py:1725-1747, 966-967, sparse_stoch_mat.py:948-1013,
`_cython_subst.py:362-388`). -/
def bAggregate (be : Backend) (A : Autocov K) (p : Part) : Except BErr (SClu K) :=
  if p.clusters.length = A.PT.nrows then noHelper (mkS A .none)
  else match be with
    | .python => .error .notImplemented
    | .compiled => noHelper (mkS (A.aggregate (p.clusters.map listSet)) .none)

/-- The `while` loop of `find_louvain_clustering` (network_clustering.py:925-990). -/
def bMetaLoop (be : Backend) (sc : Sched) (par : Params K) (A : Autocov K) :
    (steps : Nat) → (nMetaLoop : Nat) → (delta : K) → (stop : Bool) → (self : Part) →
    (mc : SClu K) → Except BErr (Nat × Part)
  | 0, _, _, _, _, _ => .error (.sparse (.part .outOfSteps))
  | steps + 1, nMetaLoop, delta, stop, self, mc =>
    if delta ≤ par.thr ∨ stop = true ∨ par.nMeta < nMetaLoop then .ok (nMetaLoop, self)
    else
      let k := nMetaLoop + 1
      match bMoveLoop be sc k par.thr par.nSub mc.A (par.nSub + 1) 1 1 0 mc.part with
      | .error e => .error e
      | .ok (d, _, mp) =>
        match updatePart self mp with
        | .error e => .error (.sparse (.part e))
        | .ok self' =>
          if (∀ c ∈ self'.clusters, c.card = 1) ∨ par.nMeta < k ∨ d ≤ par.thr then
            bMetaLoop be sc par A steps k d true self' { mc with part := removeEmpty mp }
          else
            match bAggregate be A self' with
            | .error e => .error e
            | .ok mc' => bMetaLoop be sc par A steps k d false self' mc'

/-- `find_louvain_clustering` (network_clustering.py:888-992, 1749-1751) of a
`SparseClustering`.  Its test for an all-zero covariance uses no helper routine. -/
def bFindLouvain (be : Backend) (sc : Sched) (par : Params K) (c : SClu K) :
    Except BErr (Nat × Part) :=
  if c.A.isAllZeros then
    match mk' c.A.PT.nrows (.clusterList [Finset.range c.A.PT.nrows]) false with
    | .error e => .error (.sparse (.part e))
    | .ok p => .ok (0, p)
  else
    match mkS c.A (.clusterList c.part.clusters) with
    | .error e => .error (.sparse e)
    | .ok mc => bMetaLoop be sc par c.A (par.nMeta + 3) 0 1 false c.part mc

end Verif.Backends
