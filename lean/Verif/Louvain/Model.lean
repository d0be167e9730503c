import Verif.Partition.Model
import Mathlib.Algebra.Order.Field.Basic
import Mathlib.Algebra.BigOperators.Group.Finset.Basic
import Mathlib.Data.Finset.Lattice.Fold
import Mathlib.Data.Finset.Option
import Mathlib.Data.Finset.Image

/-!
# Model of the dense symmetric clustering

`BaseClustering.__init__`, `find_louvain_clustering` and class `Clustering`
(`src/flowstab/network_clustering.py:278-458, 815-1048, 1051-1477`), with the two
Cython sums of `_cython_fast_funcs.pyx:39-69`.

Matrices are functions on indices; numbers are elements of an ordered field instead of
floats.  `p1` and `p2` only enter through `S` and are left out of the Louvain part.
-/

namespace Verif.Louvain

open Verif.Partition

variable {K : Type} [Field K] [LinearOrder K] [IsStrictOrderedRing K]

/-- A `Clustering` object: size, transition matrix, covariance matrix, partition
(network_clustering.py:337-428, 1103-1114). -/
structure Clu (K : Type) where
  n : Nat
  T : Nat → Nat → K
  S : Nat → Nat → K
  part : Part

/-- `S[idx].sum()` over rows `a` and columns `b`. -/
def blockSum (S : Nat → Nat → K) (a b : Finset Nat) : K := ∑ i ∈ a, ∑ j ∈ b, S i j

/-- `_compute_clustered_autocov` (network_clustering.py:1131-1156): the diagonal. -/
def clusteredAutocov (S : Nat → Nat → K) (p : Part) : List K :=
  p.clusters.map fun c => if 0 < c.card then blockSum S c c else 0

/-- `compute_stability` (network_clustering.py:1117-1128). -/
def stability (S : Nat → Nat → K) (p : Part) : K := (clusteredAutocov S p).sum

/-- `partition.cluster_list[c]`. -/
def getCluster (p : Part) (c : Int) : Except Err (Finset Nat) :=
  match pyIndex p.clusters.length c with
  | none => .error .indexError
  | some k => .ok (p.clusters.getD k ∅)

/-- `_compute_delta_stab_moveto` (network_clustering.py:1158-1186). -/
def deltaTo (S : Nat → Nat → K) (p : Part) (k : Nat) (cf : Int) : Except Err K :=
  match getCluster p cf with
  | .error e => .error e
  | .ok c =>
    if k ∈ c then .error .valueError
    else .ok ((∑ j ∈ c, S k j) + (∑ i ∈ c, S i k) + S k k)

/-- `_compute_delta_stab_moveout` (network_clustering.py:1188-1219). -/
def deltaOut (S : Nat → Nat → K) (p : Part) (k : Nat) (ci : Int) : Except Err K :=
  match getCluster p ci with
  | .error e => .error e
  | .ok c =>
    if k ∉ c then .error .valueError
    else .ok (-(∑ j ∈ c, S k j) - (∑ i ∈ c, S i k) + S k k)

/-- `sum_Sto` (_cython_fast_funcs.pyx:39-53): the loop over the listed nodes. -/
def sumSto (S : Nat → Nat → K) (k : Nat) (ix : List Nat) : K :=
  ix.foldl (fun d i => d + S k i + S i k) 0 + S k k

/-- `sum_Sout` (_cython_fast_funcs.pyx:55-69). -/
def sumSout (S : Nat → Nat → K) (k : Nat) (ix : List Nat) : K :=
  ix.foldl (fun d i => d - S k i - S i k) 0 + S k k

/-- `_neighs[node]` (network_clustering.py:420-428). -/
def neighs (T : Nat → Nat → K) (n node : Nat) : Finset Nat :=
  (Finset.range n).filter fun j => 0 < T node j ∨ 0 < T j node

/-- `_potential_new_clusters` (network_clustering.py:1333-1346). -/
def potentialNewClusters (p : Part) (nb : Finset Nat) (node : Nat) : Except Err (Finset Int) :=
  let cs : Finset (Option Int) := nb.image p.dict
  if none ∈ cs then .error .keyError
  else match p.dict node with
    | none => .error .keyError
    | some ci => .ok ((Finset.eraseNone cs).erase ci)

/-- The loop over candidate clusters (network_clustering.py:1271-1290), starting from
the best gain and target so far. -/
def scan (S : Nat → Nat → K) (p : Part) (node : Nat) (ci : Int) (rOut : K) :
    List Int → K → Int → Except Err (K × Int)
  | [], best, c => .ok (best, c)
  | cf :: l, best, c =>
    if cf ≠ ci then
      match deltaTo S p node cf with
      | .error e => .error e
      | .ok rIn =>
        if best ≤ rOut + rIn then scan S p node ci rOut l (rOut + rIn) cf
        else scan S p node ci rOut l best c
    else scan S p node ci rOut l best c

/-- Body of the loop over nodes (network_clustering.py:1252-1305): gain added to
`delta_r_loop` and new partition; `it` is the order in which Python lists the set of
candidates. -/
def visit (S T : Nat → Nat → K) (n : Nat) (it : Finset Int → List Int) (p : Part) (node : Nat) :
    Except Err (K × Part) :=
  match p.dict node with
  | none => .error .keyError
  | some ci =>
    match deltaOut S p node ci with
    | .error e => .error e
    | .ok rOut =>
      match potentialNewClusters p (neighs T n node) node with
      | .error e => .error e
      | .ok comms =>
        match scan S p node ci rOut (it comms) 0 ci with
        | .error e => .error e
        | .ok (best, c) =>
          if c ≠ ci then
            match moveNode p node c with
            | (some e, _) => .error e
            | (none, p') => .ok (best, p')
          else .ok (0, p)

/-- One pass over the nodes in the order `l` (network_clustering.py:1252-1305). -/
def sweep (S T : Nat → Nat → K) (n : Nat) (it : Nat → Finset Int → List Int) :
    List Nat → K → Part → Except Err (K × Part)
  | [], d, p => .ok (d, p)
  | v :: l, d, p =>
    match visit S T n (it v) p v with
    | .error e => .error e
    | .ok (g, p') => sweep S T n it l (d + g) p'

/-- All the choices that are random or unspecified in Python: for the `m`-th node-moving
phase and its `k`-th sweep, the shuffled node order and the orders in which sets of
clusters are listed. -/
structure Sched where
  order : Nat → Nat → (n : Nat) → List Nat
  listing : Nat → Nat → Nat → Finset Int → List Int
  order_perm : ∀ m k n, (order m k n).Perm (List.range n)
  mem_listing : ∀ m k v s x, x ∈ listing m k v s ↔ x ∈ s

/-- The `while` loop of `_louvain_move_nodes` (network_clustering.py:1228-1331): `nLoop`,
`delta_r_loop`, `delta_r_tot` are the Python variables, `steps` bounds the number of
iterations of the model. -/
def moveLoop (sc : Sched) (m : Nat) (thr : K) (nSub : Nat) (S T : Nat → Nat → K) (n : Nat) :
    (steps : Nat) → (nLoop : Nat) → (dLoop dTot : K) → Part → Except Err (K × Nat × Part)
  | 0, _, _, _, _ => .error .outOfSteps
  | steps + 1, nLoop, dLoop, dTot, p =>
    if thr < dLoop ∧ nLoop < nSub then
      match sweep S T n (sc.listing m nLoop) (sc.order m nLoop n) 0 p with
      | .error e => .error e
      | .ok (d, p') => moveLoop sc m thr nSub S T n steps (nLoop + 1) d (dTot + d) p'
    else .ok (dTot, nLoop, removeEmpty p)

/-- `_louvain_move_nodes` (network_clustering.py:1221-1331): reported gain, `n_loop`, new
partition. -/
def moveNodes (sc : Sched) (m : Nat) (thr : K) (nSub : Nat) (c : Clu K) (steps : Nat) :
    Except Err (K × Nat × Part) :=
  moveLoop sc m thr nSub c.S c.T c.n steps 1 1 0 c.part

/-- `numpy.isclose` with its default tolerances. -/
def isclose (a b : K) : Prop := |a - b| ≤ 1 / 10 ^ 8 + 1 / 10 ^ 5 * |b|

instance (a b : K) : Decidable (isclose a b) := by unfold isclose; infer_instance

/-- Row sum of a matrix. -/
def rowSum (n : Nat) (T : Nat → Nat → K) (i : Nat) : K := ∑ j ∈ Finset.range n, T i j

/-- The assertion of the constructor on `T` (network_clustering.py:355-357). -/
def rowsOk (n : Nat) (T : Nat → Nat → K) : Prop :=
  ∀ i < n, isclose (rowSum n T i) 1 ∨ isclose (rowSum n T i) 0

instance (n : Nat) (T : Nat → Nat → K) : Decidable (rowsOk n T) := by
  unfold rowsOk; infer_instance

/-- `Clustering(T=T, S=S, cluster_list=...)` (network_clustering.py:337-428, 1061-1114)
for square arrays of equal shape and no `S_threshold`; without `T`, the constructor uses
the constant matrix `1/n` (`mkClu` with that argument). -/
def mkClu (n : Nat) (T S : Nat → Nat → K) (arg : Arg) : Except Err (Clu K) :=
  if rowsOk n T then
    match mk' n arg false with
    | .error e => .error e
    | .ok p => .ok { n := n, T := T, S := S, part := p }
  else .error .assertionError

/-- Aggregated covariance (network_clustering.py:1401-1402). -/
def aggS (S : Nat → Nat → K) (cl : List (Finset Nat)) (s t : Nat) : K :=
  blockSum S (cl.getD s ∅) (cl.getD t ∅)

/-- `_aggregate_clusters` followed by the construction of the new clustering
(network_clustering.py:1362-1411, 966-967).  A zero row of the aggregated `T` becomes a
row of NaN (or infinities), which the assertion of the constructor rejects. -/
def aggregate (T S : Nat → Nat → K) (p : Part) : Except Err (Clu K) :=
  let m := p.clusters.length
  let T0 := aggS T p.clusters
  if ∃ s ∈ Finset.range m, rowSum m T0 s = 0 then .error .assertionError
  else mkClu m (fun s t => T0 s t / rowSum m T0 s) (aggS S p.clusters) .none

/-- The members of a finite set of nodes, listed in increasing order. -/
def listSet (c : Finset Nat) : List Nat := (List.range (c.sup id + 1)).filter (· ∈ c)

/-- Items of the new dictionary in `_get_updated_partition`
(network_clustering.py:876-884).  The nodes of a set are listed in increasing order;
the order is irrelevant.  Clusters do not overlap (C23), so keys are distinct. -/
def updateItems (md : Nat → Option Int) : Nat → List (Finset Nat) → Except Err (List (Nat × Int))
  | _, [] => .ok []
  | i, c :: cs =>
    match (if c.card = 0 then some 0 else md i) with
    | none => .error .keyError
    | some k =>
      match updateItems md (i + 1) cs with
      | .error e => .error e
      | .ok l => .ok ((listSet c).map (fun v => (v, k)) ++ l)

/-- `_get_updated_partition` (network_clustering.py:867-886). -/
def updatePart (og mp : Part) : Except Err Part :=
  let og := removeEmpty og
  let mp := removeEmpty mp
  match updateItems mp.dict 0 og.clusters with
  | .error e => .error e
  | .ok items => mk' og.numNodes (.nodeDict items) false

/-- `_check_if_S_is_zero` (network_clustering.py:1046-1048) for `n > 0`. -/
def sIsZero (n : Nat) (S : Nat → Nat → K) : Prop :=
  ∀ i < n, ∀ j < n, |S i j| < (1 / 10 ^ 6) / (n : K) ^ 2

instance (n : Nat) (S : Nat → Nat → K) : Decidable (sIsZero n S) := by
  unfold sIsZero; infer_instance

/-- Iteration limits and threshold of `find_louvain_clustering`. -/
structure Params (K : Type) where
  thr : K
  nMeta : Nat
  nSub : Nat

/-- The `while` loop of `find_louvain_clustering` (network_clustering.py:925-990):
`delta`, `stop`, `nMetaLoop` are the Python variables, `self` the partition of the
object, `mc` the variable `meta_clustering`. -/
def metaLoop (sc : Sched) (par : Params K) (T S : Nat → Nat → K) :
    (steps : Nat) → (nMetaLoop : Nat) → (delta : K) → (stop : Bool) → (self : Part) → (mc : Clu K) →
    Except Err (Nat × Part)
  | 0, _, _, _, _, _ => .error .outOfSteps
  | steps + 1, nMetaLoop, delta, stop, self, mc =>
    if delta ≤ par.thr ∨ stop = true ∨ par.nMeta < nMetaLoop then .ok (nMetaLoop, self)
    else
      let k := nMetaLoop + 1
      match moveNodes sc k par.thr par.nSub mc (par.nSub + 1) with
      | .error e => .error e
      | .ok (d, _, mp) =>
        match updatePart self mp with
        | .error e => .error e
        | .ok self' =>
          if (∀ c ∈ self'.clusters, c.card = 1) ∨ par.nMeta < k ∨ d ≤ par.thr then
            metaLoop sc par T S steps k d true self' { mc with part := removeEmpty mp }
          else
            match aggregate T S self' with
            | .error e => .error e
            | .ok mc' => metaLoop sc par T S steps k d false self' mc'

/-- `find_louvain_clustering` (network_clustering.py:888-992, 1452-1477): number of
meta loops and the final partition of the object.  `numpy.max` of an empty array raises
`ValueError`. -/
def findLouvain (sc : Sched) (par : Params K) (c : Clu K) : Except Err (Nat × Part) :=
  if c.n = 0 then .error .valueError
  else if sIsZero c.n c.S then
    match mk' c.n (.clusterList [Finset.range c.n]) false with
    | .error e => .error e
    | .ok p => .ok (0, p)
  else
    match mkClu c.n c.T c.S (.clusterList c.part.clusters) with
    | .error e => .error e
    | .ok mc => metaLoop sc par c.T c.S (par.nMeta + 3) 0 1 false c.part mc

end Verif.Louvain
