import Verif.Scripts.CompModel
import Verif.SparseLouvain.Spec
import Mathlib.Logic.Relation

/-!
# Vocabulary for the statements about connected components
-/

set_option linter.unusedSectionVars false

namespace Verif.Comps

open Verif.Partition Verif.Autocov Verif.SparseLouvain
open Verif.Louvain (listSet)

variable {K : Type} [Field K] [LinearOrder K] [IsStrictOrderedRing K]

/-- Two nodes exchange probability. -/
def Edge (A : Autocov K) (a b : Nat) : Prop := a < A.PT.nrows ∧ b < A.PT.nrows ∧ 0 < A.PT.val a b

/-- The labels number the connected components: two nodes have the same label exactly if
they are joined by a chain of edges, in any direction. -/
structure Comps (A : Autocov K) (label : Nat → Nat) : Prop where
  lt : ∀ i < A.PT.nrows, label i < A.PT.nrows
  same : ∀ i < A.PT.nrows, ∀ j < A.PT.nrows, (label i = label j ↔ Relation.EqvGen (Edge A) i j)

/-- The covariance as the script builds it: flagged symmetric, and fit for the search except
that rows may be empty. -/
structure Loaded (A : Autocov K) : Prop where
  fit : Fit0 A
  flag : A.symmetric = true

/-- The clusters list every node of `P` once and no other node. -/
def Covers (cl : List (Finset Nat)) (P : Nat → Prop) : Prop :=
  (∀ v, P v ↔ ∃ c ∈ cl, v ∈ c) ∧ cl.Pairwise Disjoint ∧ ∀ c ∈ cl, c.Nonempty

/-- A node that belongs to no component worth clustering: it has no edge to another node and
no probability. -/
def Dropped (initP1 : Bool) (A : Autocov K) (v : Nat) : Prop :=
  initP1 = true ∧ ¬ 0 < p1At A v ∧ ∀ u < A.PT.nrows, u ≠ v → ¬ Relation.EqvGen (Edge A) u v

/-- The sum of the covariance over all pairs of nodes in the same cluster. -/
def trueStability (A : Autocov K) (cl : List (Finset Nat)) : K :=
  (cl.map fun c => ∑ i ∈ c, ∑ j ∈ c, A.toarray i j).sum

end Verif.Comps
