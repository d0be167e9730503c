import Mathlib.Data.Finset.Card
import Mathlib.Data.Finset.Range

/-!
# Model of class `Partition` (`src/flowstab/network_clustering.py:62-275`)

Nodes are natural numbers, Python sets of nodes are `Finset`s, cluster indices are
Python integers (negative indices count from the end of the list).
-/

namespace Verif.Partition

/-- Exceptions raised by `Partition`. -/
inductive Err where
  | valueError
  | keyError
  | indexError
  | assertionError
  /-- not a Python exception: a loop of the model ran out of steps -/
  | outOfSteps
deriving DecidableEq, Repr

/-- A `Partition` object (network_clustering.py:97-122).  The dictionary is only ever
looked up, so it is a function; a missing key is `none`. -/
structure Part where
  numNodes : Nat
  clusters : List (Finset Nat)
  dict : Nat → Option Int

/-- Python list indexing: position meant by index `i` in a list of length `len`. -/
def pyIndex (len : Nat) (i : Int) : Option Nat :=
  if 0 ≤ i then (if i < len then some i.toNat else none)
  else (if -(len : Int) ≤ i then some (len + i).toNat else none)

/-- The loop `for i, clust in enumerate(cluster_list): for node in clust: d[node] = i`
(network_clustering.py:107-109, 171-173), starting at index `i` with dictionary `d`. -/
def fillDict (d : Nat → Option Int) (i : Nat) : List (Finset Nat) → Nat → Option Int
  | [], v => d v
  | c :: cs, v => fillDict (fun u => if u ∈ c then some (i : Int) else d u) (i + 1) cs v

/-- The dictionary describing a cluster list. -/
def dictOf (cl : List (Finset Nat)) : Nat → Option Int := fillDict (fun _ => none) 0 cl

/-- `remove_empty_clusters` (network_clustering.py:160-173). -/
def removeEmpty (p : Part) : Part :=
  let cl := p.clusters.filter fun c => decide (0 < c.card)
  { p with clusters := cl, dict := dictOf cl }

/-- Singleton clusters (network_clustering.py:101-102). -/
def singletons (n : Nat) : List (Finset Nat) := (List.range n).map fun v => {v}

/-- `cluster_list[clust].add(node)` for every item of the dictionary
(network_clustering.py:113-115). -/
def addItems : List (Nat × Int) → List (Finset Nat) → Except Err (List (Finset Nat))
  | [], cl => .ok cl
  | (v, c) :: items, cl => match pyIndex cl.length c with
    | none => .error .indexError
    | some k => addItems items (cl.modify k (insert v))

/-- `max(node_to_cluster_dict.values())`; `ValueError` for an empty dictionary. -/
def maxValue : List (Nat × Int) → Option Int
  | [] => none
  | (_, c) :: items => match maxValue items with
    | none => some c
    | some m => some (max c m)

/-- Constructor arguments. -/
inductive Arg where
  | none
  | clusterList (cl : List (Finset Nat))
  /-- the dictionary as its list of items; keys are distinct in Python -/
  | nodeDict (items : List (Nat × Int))
  | both

/-- `check_integrity` (network_clustering.py:250-275): `inter` collects the
intersections of different clusters, `total_len` the sizes. -/
def checkIntegrity (p : Part) : Except Err Unit :=
  let n := p.clusters.length
  let cl (i : Nat) : Finset Nat := p.clusters.getD i ∅
  let inter : Finset Nat :=
    (List.range n).foldl (fun s i =>
      (List.range n).foldl (fun s j => if i ≠ j then s ∪ (cl i ∩ cl j) else s) s) ∅
  let total : Nat := (List.range n).foldl (fun t i => t + (cl i).card) 0
  if 0 < inter.card then .error .valueError
  else if total ≠ p.numNodes then .error .valueError
  else .ok ()

/-- `Partition.__init__` (network_clustering.py:70-125). -/
def mk' (n : Nat) (arg : Arg) (check : Bool) : Except Err Part :=
  let fin (cl : List (Finset Nat)) : Except Err Part :=
    let p := removeEmpty { numNodes := n, clusters := cl, dict := dictOf cl }
    if check then
      match checkIntegrity p with
      | .error e => .error e
      | .ok () => .ok p
    else .ok p
  match arg with
  | .none => fin (singletons n)
  | .clusterList cl => fin cl
  | .nodeDict items =>
    match maxValue items with
    | none => .error .valueError
    | some m =>
      match addItems items (List.replicate (m + 1).toNat ∅) with
      | .error e => .error e
      | .ok cl => fin cl
  | .both => .error .valueError

/-- `move_node` (network_clustering.py:138-157): dictionary first, then removal from the
old cluster, then insertion; the object reached before an exception is returned with
it. -/
def moveNode (p : Part) (node : Nat) (cf : Int) : Option Err × Part :=
  match p.dict node with
  | none => (some .keyError, p)
  | some ci =>
    if ci ≠ cf then
      let p1 := { p with dict := fun v => if v = node then some cf else p.dict v }
      match pyIndex p1.clusters.length ci with
      | none => (some .indexError, p1)
      | some k =>
        if node ∈ p1.clusters.getD k ∅ then
          let p2 := { p1 with clusters := p1.clusters.modify k (·.erase node) }
          match pyIndex p2.clusters.length cf with
          | none => (some .indexError, p2)
          | some k' => (none, { p2 with clusters := p2.clusters.modify k' (insert node) })
        else (some .keyError, p1)
    else (none, p)

/-- `get_num_clusters` (network_clustering.py:175-192). -/
def numClusters (p : Part) (nonEmpty : Bool) : Nat :=
  if nonEmpty then (p.clusters.filter fun c => decide (0 < c.card)).length
  else p.clusters.length

/-- Public operations that change a partition. -/
inductive Op where
  | move (node : Nat) (cf : Int)
  | removeEmpty

/-- Effect of one operation (exceptions reach the caller, who goes on). -/
def step (p : Part) : Op → Part
  | .move v c => (moveNode p v c).2
  | .removeEmpty => Partition.removeEmpty p

/-- Effect of a sequence of operations. -/
def run (p : Part) (ops : List Op) : Part := ops.foldl step p

/-- `get_indicator(sparse=False)` (network_clustering.py:225-232): entry `(v, i)`; an
index outside the array is an `IndexError` in Python and is not modelled here. -/
def indicatorDense (p : Part) (v i : Nat) : Nat :=
  if v ∈ p.clusters.getD i ∅ then 1 else 0

/-- `Hindptr` of `get_indicator(sparse=True)` (network_clustering.py:210, 216-218);
`it c` is the order in which Python lists the set `c`. -/
def indicatorIndptr (it : Finset Nat → List Nat) : List (Finset Nat) → List Nat
  | [] => [0]
  | c :: cs => 0 :: (indicatorIndptr it cs).map ((it c).length + ·)

/-- `Hindices` of `get_indicator(sparse=True)` (network_clustering.py:209, 219).  The
array has `num_nodes` entries and is filled slice by slice; for a consistent partition
the slices fill it exactly. -/
def indicatorIndices (it : Finset Nat → List Nat) (cl : List (Finset Nat)) : List Nat :=
  cl.flatMap it

/-- Entry `(v, i)` of the compressed-column matrix: duplicates are summed. -/
def indicatorSparse (it : Finset Nat → List Nat) (p : Part) (v i : Nat) : Nat :=
  let ptr := indicatorIndptr it p.clusters
  (((indicatorIndices it p.clusters).take (ptr.getD (i + 1) 0)).drop (ptr.getD i 0)).count v

end Verif.Partition
