import Mathlib.Analysis.SpecialFunctions.Log.Base
import Mathlib.Data.Finset.Card

/-!
# Vocabulary for the statements about comparison measures
-/

namespace Verif.Info

/-- The clusters are disjoint and cover the nodes `U`.  Empty clusters are allowed. -/
def Clustering (U : Finset Nat) (cs : List (Finset Nat)) : Prop :=
  cs.Pairwise Disjoint ∧ ∀ x, x ∈ U ↔ ∃ c ∈ cs, x ∈ c

/-- The same clusters, whatever their order; empty clusters do not count. -/
def SameClusters (cs ds : List (Finset Nat)) : Prop := ∀ c : Finset Nat, c.Nonempty → (c ∈ cs ↔ c ∈ ds)

/-- Entropy of a clustering of `U`: `-∑ p log2 p` over the clusters, `p` the fraction of the
nodes in the cluster. -/
noncomputable def entropy (U : Finset Nat) (cs : List (Finset Nat)) : ℝ :=
  -(cs.map fun c => (c.card : ℝ) / U.card * Real.logb 2 (c.card / U.card)).sum

/-- Common refinement. -/
def meet (cs ds : List (Finset Nat)) : List (Finset Nat) := cs.flatMap fun c => ds.map fun d => c ∩ d

/-- Conditional entropy `H(cs | ds)`. -/
noncomputable def condEntropy (U : Finset Nat) (cs ds : List (Finset Nat)) : ℝ :=
  entropy U (meet cs ds) - entropy U ds

/-- Variation of information divided by its largest value, `log2` of the number of nodes. -/
noncomputable def normVar (U : Finset Nat) (cs ds : List (Finset Nat)) : ℝ :=
  (condEntropy U cs ds + condEntropy U ds cs) / Real.logb 2 U.card

/-- Mutual information divided by the larger of the entropies. -/
noncomputable def normMutual (U : Finset Nat) (cs ds : List (Finset Nat)) : ℝ :=
  (entropy U cs + entropy U ds - entropy U (meet cs ds)) / max (entropy U cs) (entropy U ds)

end Verif.Info
