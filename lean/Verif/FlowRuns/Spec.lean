import Verif.FlowRuns.Model
import Verif.Louvain.Spec

/-!
# Stopped runs: vocabulary of the statements
-/

namespace Verif.FlowRuns

open Verif.Partition Verif.Louvain

variable {K : Type} [Field K] [LinearOrder K] [IsStrictOrderedRing K]

/-- A partition of the nodes `0..n-1` into non-empty communities, its two representations agreeing. -/
def Valid (n : Nat) (p : Part) : Prop :=
  Consistent p ∧ p.numNodes = n ∧ ∀ c ∈ p.clusters, c.Nonempty

/-- Nodes that are together in the first partition are together in the second. -/
def Coarser (p q : Part) : Prop := ∀ u v, Together p.clusters u v → Together q.clusters u v

/-- The call starts from the default partition. -/
def Call.Default (c : Call K) : Prop := c.arg = .none

/-- `S'` is `S` without the entries smaller in size than the threshold, if there is one. -/
def Trimmed (thr : Option K) (S S' : Nat → Nat → K) : Prop :=
  ∀ i j, ((∀ t, thr = some t → t ≤ |S i j|) → S' i j = S i j) ∧
    ∀ t, thr = some t → |S i j| < t → S' i j = 0

end Verif.FlowRuns
