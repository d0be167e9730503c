import Verif.Louvain.Model

/-!
# Model of the covariance between source and target clusters (`BaseClustering`)

`BaseClustering` compares a partition of the nodes at the start (source) with one at the end
(target).  Cluster numbers are not negative.
-/

set_option linter.dupNamespace false

namespace Verif.Bipart

open Verif.Partition Verif.Louvain

variable {K : Type} [Field K] [LinearOrder K] [IsStrictOrderedRing K]

/-- `_compute_clustered_autocov` (network_clustering.py:461-498): entries of empty clusters
keep the zero of the new array. -/
def clustered (S : Nat → Nat → K) (src tgt : Part) : Nat → Nat → K := fun s t =>
  if 0 < (src.clusters.getD s ∅).card then
    if 0 < (tgt.clusters.getD t ∅).card then
      blockSum S (src.clusters.getD s ∅) (tgt.clusters.getD t ∅)
    else 0
  else 0

/-- `R[a, b] += x`. -/
def addAt (R : Nat → Nat → K) (a b : Nat) (x : K) : Nat → Nat → K := fun i j =>
  if i = a ∧ j = b then R i j + x else R i j

/-- The loop `for s in range(num_s_clusters): R[s, c] += ...` (network_clustering.py:590-591,
665-666). -/
def addColumn (R : Nat → Nat → K) (ns c : Nat) (x : Nat → K) : Nat → Nat → K :=
  (List.range ns).foldl (fun R s => addAt R s c (x s)) R

/-- The loop `for t in range(num_t_clusters): R[c, t] += ...` (network_clustering.py:593-594,
668-669). -/
def addRow (R : Nat → Nat → K) (nt c : Nat) (x : Nat → K) : Nat → Nat → K :=
  (List.range nt).foldl (fun R t => addAt R c t (x t)) R

/-- `_compute_new_R_moveout` (network_clustering.py:610-676). -/
def moveOut (S : Nat → Nat → K) (src tgt : Part) (k cis cit : Nat) (Rold : Option (Nat → Nat → K)) :
    Except Err (Nat → Nat → K) :=
  let R := Rold.getD (clustered S src tgt)
  let ns := src.clusters.length
  let nt := tgt.clusters.length
  if ns ≤ cis then .error .indexError
  else if k ∉ src.clusters.getD cis ∅ then .error .valueError
  else if nt ≤ cit then .error .indexError
  else if k ∉ tgt.clusters.getD cit ∅ then .error .valueError
  else
    let R := addColumn R ns cit fun s => -(∑ i ∈ src.clusters.getD s ∅, S i k)
    let R := addRow R nt cis fun t => -(∑ j ∈ tgt.clusters.getD t ∅, S k j)
    .ok (addAt R cis cit (S k k))

/-- `_compute_new_R_moveto` (network_clustering.py:543-607): the partitions are still those
before the move. -/
def moveTo (S : Nat → Nat → K) (src tgt : Part) (k cis cit cfs cft : Nat) (Rold : Nat → Nat → K) :
    Except Err (Nat → Nat → K) :=
  let ns := src.clusters.length
  let nt := tgt.clusters.length
  if ns ≤ cfs ∨ nt ≤ cft then .error .indexError
  else
    let R := addColumn Rold ns cft fun s => ∑ i ∈ src.clusters.getD s ∅, S i k
    let R := addRow R nt cfs fun t => ∑ j ∈ tgt.clusters.getD t ∅, S k j
    let R := addAt R cis cft (-(S k k))
    let R := addAt R cfs cit (-(S k k))
    .ok (addAt R cfs cft (S k k))

/-- `_find_optimal_flow` (network_clustering.py:501-524), given the pairs of
`linear_sum_assignment(1 - R)`: their stability and the two dictionaries. -/
def optimalFlow (assign : (Nat → Nat → K) → List (Nat × Nat)) (R : Nat → Nat → K) :
    K × (Nat → Option Nat) × (Nat → Option Nat) :=
  let l := assign fun s t => 1 - R s t
  ((l.map fun e => R e.1 e.2).sum,
    fun s => (l.reverse.find? fun e => e.1 == s).map (·.2),
    fun t => (l.reverse.find? fun e => e.2 == t).map (·.1))

end Verif.Bipart
