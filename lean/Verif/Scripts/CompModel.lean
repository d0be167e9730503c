import Verif.SparseLouvain.Model

/-!
# Model of the clustering of connected components

The options `separate_comps` and `only_largest_comp` of `scripts/run_clusterings.py`: the
splitting of the covariance in `load_autocov_int` (397-464) and the clustering of the pieces
in `_compute_sym_list_clustering_fct` (548-593) and `_compute_clustering_fct` (517-546).
The covariance is the model of `Verif.Autocov`, the search that of `Verif.SparseLouvain`.

The labels returned by `scipy.sparse.csgraph.connected_components` are an argument; what is
assumed of them is `Verif.Comps.Comps`.  Each piece gets its own random orders, `sc i`.
The script refuses both options together (`run_clusterings.py:205-206`).
-/

namespace Verif.Comps

open Verif.Partition Verif.Autocov Verif.SparseLouvain
open Verif.Louvain (Sched Params listSet)

variable {K : Type} [Field K] [LinearOrder K] [IsStrictOrderedRing K]

/-- Exceptions of the clustering of a piece: those of the search, the failing `assert`, a
missing key of `node_map`, and `cluster_list[0]` of an empty list. -/
inductive CErr where
  | run (e : SErr)
  | assertion
  | keyError
  | indexError
deriving DecidableEq, Repr

/-- `np.unique(label)` (run_clusterings.py:434).  The labels are numbers below the number of
nodes. -/
def uniqueLabels (n : Nat) (label : Nat → Nat) : List Nat :=
  (List.range n).filter fun c => (List.range n).any fun i => label i == c

/-- `mask_cmp.nonzero()[0]` (run_clusterings.py:435-436). -/
def compNodes (n : Nat) (label : Nat → Nat) (c : Nat) : List Nat :=
  (List.range n).filter fun i => label i == c

/-- `(~mask_cmp).nonzero()[0]` (run_clusterings.py:447). -/
def restNodes (n : Nat) (label : Nat → Nat) (c : Nat) : List Nat :=
  (List.range n).filter fun i => !(label i == c)

/-- `idx_list` (run_clusterings.py:447-448, 415-416). -/
def idxList (n : Nat) (label : Nat → Nat) (c : Nat) : List (List Nat) :=
  restNodes n label c :: (compNodes n label c).map fun i => [i]

/-- `S.p1[i]`. -/
def p1At (A : Autocov K) (i : Nat) : K :=
  match A.w with
  | .scalars a _ => a
  | .vectors p1 _ => p1 i

/-- `S_list` with `comp_nodes_list`, and `singletons` (run_clusterings.py:431-433). -/
structure Split (K : Type) where
  parts : List (Autocov K × List Nat)
  singles : List Nat

/-- Body of the loop over the components (run_clusterings.py:434-456).  `pzero_nodes` are the
nodes with `~(S.p1 > 0)` if `init_p1`, otherwise none (lines 423-428). -/
def splitStep (initP1 : Bool) (A : Autocov K) (label : Nat → Nat) (s : Split K) (c : Nat) : Split K :=
  match compNodes A.PT.nrows label c with
  | [v] =>
    if initP1 = true ∧ ¬ 0 < p1At A v then s
    else { s with singles := s.singles ++ [v] }
  | nodes => { s with parts := s.parts ++ [(A.aggregate (idxList A.PT.nrows label c), nodes)] }

/-- The loop over `np.unique(label)` (run_clusterings.py:431-456). -/
def split (initP1 : Bool) (A : Autocov K) (label : Nat → Nat) : Split K :=
  (uniqueLabels A.PT.nrows label).foldl (splitStep initP1 A label) ⟨[], []⟩

/-- `node_map[n]` with `node_map = {i+1: node for i, node in enumerate(comp_nodes)}`
(run_clusterings.py:577). -/
def nodeMap (nodes : List Nat) (k : Nat) : Option Nat :=
  if k = 0 then none else nodes[k - 1]?

/-- The values of a list of keys, or none if a key is missing. -/
def mapNodes (nodes : List Nat) : List Nat → Option (List Nat)
  | [] => some []
  | k :: l =>
    match nodeMap nodes k, mapNodes nodes l with
    | some v, some vs => some (v :: vs)
    | _, _ => none

/-- `{node_map[n] for n in clust}` for the clusters of a list (run_clusterings.py:579-580). -/
def mapClusters (nodes : List Nat) : List (Finset Nat) → Option (List (Finset Nat))
  | [] => some []
  | c :: l =>
    match mapNodes nodes (listSet c), mapClusters nodes l with
    | some vs, some cs => some (vs.toFinset :: cs)
    | _, _ => none

/-- Body of the loop over the pieces (run_clusterings.py:560-582): the clusters added to
`cluster_list` and the amount added to `stability`. -/
def clusterOne (sc : Sched) (par : Params K) (A : Autocov K) (nodes : List Nat) :
    Except CErr (List (Finset Nat) × K) :=
  match mkS A .none with
  | .error e => .error (.run e)
  | .ok c =>
    match sFindLouvain sc par c with
    | .error e => .error (.run e)
    | .ok (_, p) =>
      if numClusters p false = 1 then .ok ([nodes.toFinset], 0)
      else
        match p.clusters with
        | [] => .error .indexError
        | c0 :: rest =>
          if c0.card = 1 ∧ p.dict 0 = some 0 then
            match mapClusters nodes rest with
            | none => .error .keyError
            | some cs => .ok (cs, sStability A p)
          else .error .assertion

/-- The loop over the pieces (run_clusterings.py:557-582), from piece `i` on. -/
def clusterParts (sc : Nat → Sched) (par : Params K) :
    Nat → List (Autocov K × List Nat) → Except CErr (List (Finset Nat) × K)
  | _, [] => .ok ([], 0)
  | i, (A, nodes) :: l =>
    match clusterOne (sc i) par A nodes with
    | .error e => .error e
    | .ok (cs, g) =>
      match clusterParts sc par (i + 1) l with
      | .error e => .error e
      | .ok (ds, h) => .ok (cs ++ ds, g + h)

/-- `load_autocov_int` with `separate_comps` followed by `_compute_sym_list_clustering_fct`
(run_clusterings.py:421-456, 548-593): cluster list and stability. -/
def runComps (sc : Nat → Sched) (par : Params K) (initP1 : Bool) (A : Autocov K)
    (label : Nat → Nat) : Except CErr (List (Finset Nat) × K) :=
  let s := split initP1 A label
  match clusterParts sc par 0 s.parts with
  | .error e => .error e
  | .ok (cs, g) => .ok (cs ++ s.singles.map fun v => {v}, g)

/-- The label of the largest component, the first of them in case of a tie
(`np.where(np.bincount(label) == np.bincount(label).max())[0][0]`,
run_clusterings.py:410-411). -/
def largestLabel (n : Nat) (label : Nat → Nat) : Nat :=
  ((List.range n).find? fun c => (List.range n).all fun d =>
    decide ((compNodes n label d).length ≤ (compNodes n label c).length)).getD 0

/-- `load_autocov_int` with `only_largest_comp` followed by `_compute_clustering_fct`
(run_clusterings.py:409-420, 517-546): cluster list, stability and `largest_comp_nodes`.  The
clusters are sets of positions in the aggregated covariance, as the script saves them. -/
def runLargest (sc : Sched) (par : Params K) (A : Autocov K) (label : Nat → Nat) :
    Except CErr (List (Finset Nat) × K × List Nat) :=
  let c := largestLabel A.PT.nrows label
  let B := A.aggregate (idxList A.PT.nrows label c)
  match mkS B .none with
  | .error e => .error (.run e)
  | .ok cl =>
    match sFindLouvain sc par cl with
    | .error e => .error (.run e)
    | .ok (_, p) => .ok (p.clusters, sStability B p, compNodes A.PT.nrows label c)

end Verif.Comps
