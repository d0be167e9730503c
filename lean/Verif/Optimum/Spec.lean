import Verif.Partition.Spec
import Mathlib.Algebra.Order.Field.Basic
import Mathlib.Algebra.BigOperators.Group.Finset.Basic

/-!
# Quality of the communities found: vocabulary of the statements
-/

set_option linter.dupNamespace false

namespace Verif.Optimum

open Verif.Partition

variable {K : Type} [Field K] [LinearOrder K] [IsStrictOrderedRing K]

/-- Stability of a list of clusters: the sum of the covariance over the ordered pairs of nodes that
share a cluster. -/
noncomputable def inside (n : Nat) (S : Nat → Nat → K) (cl : List (Finset Nat)) : K :=
  open Classical in
  ∑ i ∈ Finset.range n, ∑ j ∈ Finset.range n, if ∃ c ∈ cl, i ∈ c ∧ j ∈ c then S i j else 0

/-- No ties: two partitions whose stabilities differ by no more than `thr` group the nodes
equally. -/
def NoTies (n : Nat) (S : Nat → Nat → K) (thr : K) : Prop :=
  ∀ cl cl', IsPartition n cl → IsPartition n cl' → |inside n S cl - inside n S cl'| ≤ thr →
    ∀ u v, Together cl u v ↔ Together cl' u v

/-- The walk can step between the two sets of nodes. -/
def Adjacent (T : Nat → Nat → K) (A B : Finset Nat) : Prop :=
  ∃ i ∈ A, ∃ j ∈ B, 0 < T i j ∨ 0 < T j i

/-- `cl'` is `cl` with the clusters `A` and `B` joined. -/
def JoinOf (A B : Finset Nat) (cl cl' : List (Finset Nat)) : Prop :=
  ∀ u v, Together cl' u v ↔ Together cl u v ∨ (u ∈ A ∪ B ∧ v ∈ A ∪ B)

/-- `cl'` is `cl` with the node `x` taken out of its cluster. -/
def TakenOut (x : Nat) (cl cl' : List (Finset Nat)) : Prop :=
  ∀ u v, Together cl' u v ↔ Together cl u v ∧ (u = x ↔ v = x)

end Verif.Optimum
