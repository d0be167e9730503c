import Verif.Louvain.Props

/-!
# The dense Louvain clustering in machine arithmetic

`find_louvain_clustering` and class `Clustering`
(`src/flowstab/network_clustering.py:337-428, 888-992, 1046-1048, 1117-1411, 1452-1477`,
`_cython_fast_funcs.pyx:39-69`) again, this time with the number operations of the machine
instead of exact ones.  The operations are parameters without any law: they may round,
overflow or meet NaN.  The parts that do not compute with numbers (partitions, moves,
induced partitions) are those of `Verif.Partition` and `Verif.Louvain`.
-/

namespace Verif.Rounding

open Verif.Partition Verif.Louvain

/-- The operations on numbers used by the clustering.  No law is assumed. -/
structure Arith (F : Type) where
  zero : F
  one : F
  add : F → F → F
  sub : F → F → F
  neg : F → F
  div : F → F → F
  /-- `a.sum()` of a vector -/
  sum : List F → F
  /-- `a.sum()` of a matrix given by its rows -/
  sum2 : List (List F) → F
  /-- `<=`; false when an operand is NaN -/
  le : F → F → Bool
  /-- `<` -/
  lt : F → F → Bool
  /-- `numpy.isclose` -/
  isclose : F → F → Bool
  /-- `np.abs(S).max() < 1e-6/(n**2)` (network_clustering.py:1046-1048), for `n` and the
  rows of `S` -/
  negligible : Nat → List (List F) → Bool

/-- Everything random or unspecified: the choices of `Sched` and the orders in which the
nodes of a cluster are listed, for the gains (phase, sweep, node) and for the aggregation
(phase). -/
structure FSched extends Sched where
  nodes : Nat → Nat → Nat → Finset Nat → List Nat
  nodes_nodup : ∀ m k v c, (nodes m k v c).Nodup
  mem_nodes : ∀ m k v c x, x ∈ nodes m k v c ↔ x ∈ c
  block : Nat → Finset Nat → List Nat
  block_nodup : ∀ m c, (block m c).Nodup
  mem_block : ∀ m c x, x ∈ block m c ↔ x ∈ c

variable {F : Type}

/-- The sum of `_compute_delta_stab_moveto` (network_clustering.py:1178-1184): with the
compiled loop (`cy`, _cython_fast_funcs.pyx:39-53) or with numpy. -/
def sumTo (ar : Arith F) (cy : Bool) (S : Nat → Nat → F) (k : Nat) (ix : List Nat) : F :=
  if cy then
    ar.add (ix.foldl (fun d i => ar.add (ar.add d (S k i)) (S i k)) ar.zero) (S k k)
  else ar.add (ar.add (ar.sum (ix.map fun j => S k j)) (ar.sum (ix.map fun i => S i k))) (S k k)

/-- The sum of `_compute_delta_stab_moveout` (network_clustering.py:1210-1217;
_cython_fast_funcs.pyx:55-69). -/
def sumOut (ar : Arith F) (cy : Bool) (S : Nat → Nat → F) (k : Nat) (ix : List Nat) : F :=
  if cy then
    ar.add (ix.foldl (fun d i => ar.sub (ar.sub d (S k i)) (S i k)) ar.zero) (S k k)
  else ar.add (ar.sub (ar.neg (ar.sum (ix.map fun j => S k j)))
    (ar.sum (ix.map fun i => S i k))) (S k k)

/-- `_compute_delta_stab_moveto` (network_clustering.py:1158-1186). -/
def deltaTo (ar : Arith F) (cy : Bool) (S : Nat → Nat → F) (lst : Finset Nat → List Nat) (p : Part)
    (k : Nat) (cf : Int) : Except Err F :=
  match getCluster p cf with
  | .error e => .error e
  | .ok c => if k ∈ c then .error .valueError else .ok (sumTo ar cy S k (lst c))

/-- `_compute_delta_stab_moveout` (network_clustering.py:1188-1219). -/
def deltaOut (ar : Arith F) (cy : Bool) (S : Nat → Nat → F) (lst : Finset Nat → List Nat) (p : Part)
    (k : Nat) (ci : Int) : Except Err F :=
  match getCluster p ci with
  | .error e => .error e
  | .ok c => if k ∉ c then .error .valueError else .ok (sumOut ar cy S k (lst c))

/-- `_neighs[node]` (network_clustering.py:420-428). -/
def neighs (ar : Arith F) (T : Nat → Nat → F) (n node : Nat) : Finset Nat :=
  (Finset.range n).filter fun j => ar.lt ar.zero (T node j) = true ∨ ar.lt ar.zero (T j node) = true

/-- The loop over candidate clusters (network_clustering.py:1271-1290). -/
def scan (ar : Arith F) (cy : Bool) (S : Nat → Nat → F) (lst : Finset Nat → List Nat) (p : Part)
    (node : Nat) (ci : Int) (rOut : F) : List Int → F → Int → Except Err (F × Int)
  | [], best, c => .ok (best, c)
  | cf :: l, best, c =>
    if cf ≠ ci then
      match deltaTo ar cy S lst p node cf with
      | .error e => .error e
      | .ok rIn =>
        if ar.le best (ar.add rOut rIn) then scan ar cy S lst p node ci rOut l (ar.add rOut rIn) cf
        else scan ar cy S lst p node ci rOut l best c
    else scan ar cy S lst p node ci rOut l best c

/-- Body of the loop over nodes (network_clustering.py:1252-1305): the gain of an executed
move, and the new partition. -/
def visit (ar : Arith F) (cy : Bool) (S T : Nat → Nat → F) (n : Nat) (it : Finset Int → List Int)
    (lst : Finset Nat → List Nat) (p : Part) (node : Nat) : Except Err (Option F × Part) :=
  match p.dict node with
  | none => .error .keyError
  | some ci =>
    match deltaOut ar cy S lst p node ci with
    | .error e => .error e
    | .ok rOut =>
      match potentialNewClusters p (neighs ar T n node) node with
      | .error e => .error e
      | .ok comms =>
        match scan ar cy S lst p node ci rOut (it comms) ar.zero ci with
        | .error e => .error e
        | .ok (best, c) =>
          if c ≠ ci then
            match moveNode p node c with
            | (some e, _) => .error e
            | (none, p') => .ok (some best, p')
          else .ok (none, p)

/-- One pass over the nodes (network_clustering.py:1252-1305); `delta_r_loop` changes only
when a node moves. -/
def sweep (ar : Arith F) (cy : Bool) (S T : Nat → Nat → F) (n : Nat)
    (it : Nat → Finset Int → List Int) (lst : Nat → Finset Nat → List Nat) :
    List Nat → F → Part → Except Err (F × Part)
  | [], d, p => .ok (d, p)
  | v :: l, d, p =>
    match visit ar cy S T n (it v) (lst v) p v with
    | .error e => .error e
    | .ok (none, p') => sweep ar cy S T n it lst l d p'
    | .ok (some g, p') => sweep ar cy S T n it lst l (ar.add d g) p'

/-- The `while` loop of `_louvain_move_nodes` (network_clustering.py:1228-1331). -/
def moveLoop (ar : Arith F) (cy : Bool) (sc : FSched) (m : Nat) (thr : F) (nSub : Nat)
    (S T : Nat → Nat → F) (n : Nat) :
    (steps : Nat) → (nLoop : Nat) → (dLoop dTot : F) → Part → Except Err (F × Nat × Part)
  | 0, _, _, _, _ => .error .outOfSteps
  | steps + 1, nLoop, dLoop, dTot, p =>
    if ar.lt thr dLoop = true ∧ nLoop < nSub then
      match sweep ar cy S T n (sc.listing m nLoop) (sc.nodes m nLoop) (sc.order m nLoop n) ar.zero p with
      | .error e => .error e
      | .ok (d, p') =>
        moveLoop ar cy sc m thr nSub S T n steps (nLoop + 1) d (ar.add dTot d) p'
    else .ok (dTot, nLoop, removeEmpty p)

/-- `_louvain_move_nodes` (network_clustering.py:1221-1331). -/
def moveNodes (ar : Arith F) (cy : Bool) (sc : FSched) (m : Nat) (thr : F) (nSub : Nat) (c : Clu F)
    (steps : Nat) : Except Err (F × Nat × Part) :=
  moveLoop ar cy sc m thr nSub c.S c.T c.n steps 1 ar.one ar.zero c.part

/-- The assertion of the constructor on `T` (network_clustering.py:355-357). -/
def rowsOk (ar : Arith F) (n : Nat) (T : Nat → Nat → F) : Prop :=
  ∀ i < n, ar.isclose (ar.sum ((List.range n).map (T i))) ar.one = true ∨
    ar.isclose (ar.sum ((List.range n).map (T i))) ar.zero = true

instance (ar : Arith F) (n : Nat) (T : Nat → Nat → F) : Decidable (rowsOk ar n T) := by
  unfold rowsOk; infer_instance

/-- `Clustering(T=T, S=S, cluster_list=...)` (network_clustering.py:337-428, 1061-1114). -/
def mkClu (ar : Arith F) (n : Nat) (T S : Nat → Nat → F) (arg : Arg) : Except Err (Clu F) :=
  if rowsOk ar n T then
    match mk' n arg false with
    | .error e => .error e
    | .ok p => .ok { n := n, T := T, S := S, part := p }
  else .error .assertionError

/-- Sums over pairs of clusters (network_clustering.py:1398-1402). -/
def agg (ar : Arith F) (lst : Finset Nat → List Nat) (S : Nat → Nat → F) (cl : List (Finset Nat))
    (s t : Nat) : F :=
  ar.sum2 ((lst (cl.getD s ∅)).map fun i => (lst (cl.getD t ∅)).map fun j => S i j)

/-- `_aggregate_clusters` followed by the construction of the new clustering
(network_clustering.py:1362-1411, 966-967). -/
def aggregate (ar : Arith F) (lst : Finset Nat → List Nat) (T S : Nat → Nat → F) (p : Part) :
    Except Err (Clu F) :=
  let m := p.clusters.length
  let T0 := agg ar lst T p.clusters
  mkClu ar m (fun s t => ar.div (T0 s t) (ar.sum ((List.range m).map (T0 s))))
    (agg ar lst S p.clusters) .none

/-- The `while` loop of `find_louvain_clustering` (network_clustering.py:925-990). -/
def metaLoop (ar : Arith F) (cy : Bool) (sc : FSched) (par : Params F) (T S : Nat → Nat → F) :
    (steps : Nat) → (nMetaLoop : Nat) → (delta : F) → (stop : Bool) → (self : Part) → (mc : Clu F) →
    Except Err (Nat × Part)
  | 0, _, _, _, _, _ => .error .outOfSteps
  | steps + 1, nMetaLoop, delta, stop, self, mc =>
    if ar.le delta par.thr = true ∨ stop = true ∨ par.nMeta < nMetaLoop then .ok (nMetaLoop, self)
    else
      let k := nMetaLoop + 1
      match moveNodes ar cy sc k par.thr par.nSub mc (par.nSub + 1) with
      | .error e => .error e
      | .ok (d, _, mp) =>
        match updatePart self mp with
        | .error e => .error e
        | .ok self' =>
          if (∀ c ∈ self'.clusters, c.card = 1) ∨ par.nMeta < k ∨ ar.le d par.thr = true then
            metaLoop ar cy sc par T S steps k d true self' { mc with part := removeEmpty mp }
          else
            match aggregate ar (sc.block k) T S self' with
            | .error e => .error e
            | .ok mc' => metaLoop ar cy sc par T S steps k d false self' mc'

/-- `find_louvain_clustering` (network_clustering.py:888-992, 1452-1477): number of meta
loops and the final partition of the object. -/
def findLouvain (ar : Arith F) (cy : Bool) (sc : FSched) (par : Params F) (c : Clu F) :
    Except Err (Nat × Part) :=
  if c.n = 0 then .error .valueError
  else if ar.negligible c.n ((List.range c.n).map fun i => (List.range c.n).map fun j => c.S i j) then
    match mk' c.n (.clusterList [Finset.range c.n]) false with
    | .error e => .error e
    | .ok p => .ok (0, p)
  else
    match mkClu ar c.n c.T c.S (.clusterList c.part.clusters) with
    | .error e => .error e
    | .ok mc => metaLoop ar cy sc par c.T c.S (par.nMeta + 3) 0 ar.one false c.part mc

end Verif.Rounding
