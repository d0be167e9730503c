import Verif.Static.Model
import Verif.Louvain.Spec

/-!
# Clustering of a static network: vocabulary of the statements
-/

set_option linter.dupNamespace false

namespace Verif.Static

open Verif.Trans Verif.Partition

variable {K : Type} [Field K] [LinearOrder K] [IsStrictOrderedRing K]

/-- Weights of a network: no negative weight. -/
def Weighted (n : Nat) (A : Mat K) : Prop := ∀ i < n, ∀ j < n, 0 ≤ A i j

/-- The network is undirected. -/
def Symm (n : Nat) (A : Mat K) : Prop := ∀ i < n, ∀ j < n, A i j = A j i

/-- Strength of a node. -/
def strength (n : Nat) (A : Mat K) (i : Nat) : K := ∑ j ∈ Finset.range n, A i j

/-- Sum of all the strengths, twice the total weight of the edges. -/
def twoM (n : Nat) (A : Mat K) : K := ∑ i ∈ Finset.range n, ∑ j ∈ Finset.range n, A i j

/-- The random walk on the network: from `i` along an edge chosen by its weight; a node without
edges is never left. -/
def walk (n : Nat) (A : Mat K) : Mat K := fun i j =>
  if strength n A i = 0 then (if i = j then 1 else 0) else A i j / strength n A i

/-- `p` is a probability distribution on the nodes. -/
def Distribution (n : Nat) (p : Nat → K) : Prop :=
  (∀ i < n, 0 ≤ p i) ∧ ∑ i ∈ Finset.range n, p i = 1

/-- `p` does not change under the steps `T`. -/
def Stationary (n : Nat) (p : Nat → K) (T : Mat K) : Prop :=
  ∀ j < n, ∑ i ∈ Finset.range n, p i * T i j = p j

/-- Every node can be reached from every node along edges. -/
def StronglyConnected (n : Nat) (A : Mat K) : Prop :=
  ∀ i < n, ∀ j < n, Relation.ReflTransGen (fun a b => a < n ∧ b < n ∧ 0 < A a b) i j

/-- The pair is an eigenvalue of the matrix (acting on columns) with an eigenvector that is not
zero. -/
def IsEig (n : Nat) (M : Mat K) (r : EigPair K) : Prop :=
  (∀ i < n, ∑ j ∈ Finset.range n, M i j * r.vr j = r.wr * r.vr i - r.wi * r.vi i) ∧
    (∀ i < n, ∑ j ∈ Finset.range n, M i j * r.vi j = r.wr * r.vi i + r.wi * r.vr i) ∧
    ∃ i < n, r.vr i ≠ 0 ∨ r.vi i ≠ 0

open Classical in
/-- Newman's modularity of a partition: fraction of the weight inside clusters, minus the
fraction expected when the ends of edges are joined at random. -/
noncomputable def modularity (n : Nat) (A : Mat K) (cl : List (Finset Nat)) : K :=
  ∑ i ∈ Finset.range n, ∑ j ∈ Finset.range n,
    if Together cl i j then
      A i j / twoM n A - strength n A i * strength n A j / (twoM n A * twoM n A) else 0

open Classical in
/-- Modularity with a resolution parameter: the fraction that is expected counts `γ` times. -/
noncomputable def modularityAt (γ : K) (n : Nat) (A : Mat K) (cl : List (Finset Nat)) : K :=
  ∑ i ∈ Finset.range n, ∑ j ∈ Finset.range n,
    if Together cl i j then
      A i j / twoM n A - γ * (strength n A i * strength n A j / (twoM n A * twoM n A)) else 0

end Verif.Static
