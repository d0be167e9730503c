import Verif.Partition.Spec
import Verif.TempNet.Model
import Mathlib.Logic.Relation
import Mathlib.Data.Set.Basic

/-!
# Groups of nodes that are not linked: vocabulary of the statements
-/

set_option linter.dupNamespace false

namespace Verif.Groups

open Verif.Partition Verif.TempNet

/-- Transitions stay in the group of the node. -/
def Closed {K α : Type} [Zero K] (n : Nat) (T : Nat → Nat → K) (grp : Nat → α) : Prop :=
  ∀ i < n, ∀ j < n, T i j ≠ 0 → grp i = grp j

/-- No cluster has nodes of two groups. -/
def Unmixed {α : Type} (grp : Nat → α) (cl : List (Finset Nat)) : Prop :=
  ∀ u v, Together cl u v → grp u = grp v

/-- Two labels are joined by a chain of contacts, whenever these take place. -/
def Linked {L K : Type} (evs : List (Event L K)) : L → L → Prop :=
  Relation.EqvGen fun x y => ∃ e ∈ evs, e.src = x ∧ e.tgt = y

/-- The labels that are linked with the `i`-th label. -/
def group {L K : Type} (evs : List (Event L K)) (nodes : List L) (i : Nat) : Set L :=
  {y | ∃ x, nodes[i]? = some x ∧ Linked evs x y}

end Verif.Groups
