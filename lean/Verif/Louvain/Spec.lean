import Verif.Louvain.Model
import Verif.Partition.Spec

/-!
# Vocabulary for the statements about Louvain clustering
-/

namespace Verif.Louvain

open Verif.Partition

variable {K : Type} [Field K] [LinearOrder K] [IsStrictOrderedRing K]

open Classical in
/-- Stability of a partition, independently of how clusters are stored: the sum of
`S i j` over all ordered pairs of nodes that are in the same cluster. -/
noncomputable def pairStability (S : Nat → Nat → K) (p : Part) : K :=
  ∑ i ∈ Finset.range p.numNodes, ∑ j ∈ Finset.range p.numNodes,
    if Together p.clusters i j then S i j else 0

/-- The object is in the state left by its constructor with the default partition: one
node per cluster. -/
def FreshDefault (c : Clu K) : Prop := mkClu c.n c.T c.S .none = .ok c

/-- The object is in the state left by its constructor for the given clusters. -/
def FreshFrom (cl : List (Finset Nat)) (c : Clu K) : Prop :=
  mkClu c.n c.T c.S (.clusterList cl) = .ok c

end Verif.Louvain
