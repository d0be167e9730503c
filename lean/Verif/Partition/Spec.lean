import Verif.Partition.Model

/-!
# Vocabulary for the statements about partitions
-/

namespace Verif.Partition

/-- Node `v` is in the cluster at position `i` of the list. -/
def At (cl : List (Finset Nat)) (i v : Nat) : Prop := ∃ c, cl[i]? = some c ∧ v ∈ c

/-- The clusters form a partition of the nodes `0..n-1`: each such node is in exactly
one position of the list and no other node occurs.  Empty clusters are allowed. -/
def IsPartition (n : Nat) (cl : List (Finset Nat)) : Prop :=
  ∀ v, (v < n → ∃! i, At cl i v) ∧ (n ≤ v → ∀ i, ¬ At cl i v)

/-- Cluster list and dictionary describe the same partition of the node set. -/
def Consistent (p : Part) : Prop :=
  IsPartition p.numNodes p.clusters ∧
    ∀ v (i : Int), p.dict v = some i ↔ ∃ k : Nat, i = k ∧ At p.clusters k v

/-- The constructor argument describes a partition of `0..n-1` (`none` is the default
of one node per cluster). -/
def ValidArg (n : Nat) : Arg → Prop
  | .none => True
  | .clusterList cl => IsPartition n cl
  | .nodeDict items => (items.map (·.1)).Nodup ∧ (∀ v, v ∈ items.map (·.1) ↔ v < n) ∧
      (∀ a ∈ items, 0 ≤ a.2) ∧ items ≠ []
  | .both => False

/-- Every move of the sequence names a cluster that exists at that moment, by its
position (not counted from the end). -/
def TargetsExist : Part → List Op → Prop
  | _, [] => True
  | p, .move v c :: ops =>
    (0 ≤ c ∧ c < p.clusters.length) ∧ TargetsExist (step p (.move v c)) ops
  | p, .removeEmpty :: ops => TargetsExist (step p .removeEmpty) ops

/-- Same cluster for two nodes. -/
def Together (cl : List (Finset Nat)) (u v : Nat) : Prop := ∃ i, At cl i u ∧ At cl i v

end Verif.Partition
