import Verif.NviReport.Model
import Verif.Scripts.Cluster
import Verif.Scripts.Comp
import Verif.Info.Spec

/-!
# Vocabulary for the statements about the reported variation of information
-/

namespace Verif.NviReport

open Verif.Scripts.Cluster (Clusters IsMean)

/-- `m` is the mean of `value` over `samples` different pairs of repetitions. -/
def MeanOver (value : Clusters → Clusters → ℝ) (samples : Nat) (lists : List Clusters) (m : Option ℝ) : Prop :=
  ∃ sample : List (Nat × Nat), sample.Nodup ∧ sample.length = samples ∧
    (∀ p ∈ sample, p.1 < p.2 ∧ p.2 < lists.length) ∧
    IsMean (sample.map fun p => value (lists.getD p.1 []) (lists.getD p.2 [])) m

/-- A list of disjoint nonempty clusters that cover exactly the nodes `U`. -/
def ClusteringOf (U : Finset Nat) (cl : Clusters) : Prop := Verif.Info.Clustering U cl ∧ ∅ ∉ cl

/-- The connected components with the most nodes have `s` nodes. -/
def LargestSize {K : Type} [Field K] [LinearOrder K] [IsStrictOrderedRing K] (A : Verif.Autocov.Autocov K) (s : Nat) : Prop :=
  (∃ v < A.PT.nrows, ∃ F : Finset Nat,
    (∀ u, u ∈ F ↔ u < A.PT.nrows ∧ Relation.EqvGen (Verif.Comps.Edge A) u v) ∧ F.card = s) ∧
  ∀ v < A.PT.nrows, ∀ F : Finset Nat,
    (∀ u ∈ F, u < A.PT.nrows ∧ Relation.EqvGen (Verif.Comps.Edge A) u v) → F.card ≤ s

end Verif.NviReport
