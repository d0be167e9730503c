import Verif.Trans.Model
import Verif.TempNet.Spec
import Mathlib.Logic.Relation

/-!
# Transition matrices: vocabulary of the statements
-/

set_option linter.dupNamespace false

namespace Verif.Trans

open Verif.TempNet

variable {K : Type} [Field K] [LinearOrder K] [IsStrictOrderedRing K]

/-- A stochastic matrix: no negative entries, rows sum to one. -/
def Stoch (n : Nat) (A : Mat K) : Prop :=
  ∀ i < n, (∀ j < n, 0 ≤ A i j) ∧ ∑ j ∈ Finset.range n, A i j = 1

/-- Equal as `n × n` matrices. -/
def EqOn (n : Nat) (A B : Mat K) : Prop := ∀ i < n, ∀ j < n, A i j = B i j

/-- Ordered product of a list of matrices. -/
def prod (n : Nat) : List (Mat K) → Mat K
  | [] => eye
  | A :: r => mul n A (prod n r)

/-- `m` is the largest absolute value of the entries (0 when there are none). -/
def LargestAbs (n : Nat) (A : Mat K) (m : K) : Prop :=
  (∀ i < n, ∀ j < n, |A i j| ≤ m) ∧ ∀ b, 0 ≤ b → (∀ i < n, ∀ j < n, |A i j| ≤ b) → m ≤ b

/-- `B` is `A` after the entries up to `tol` times the largest absolute value were deleted and
the rows were divided by what is left in them. -/
def Rounded (n : Nat) (tol : K) (A B : Mat K) : Prop :=
  ∃ m, LargestAbs n A m ∧ ∀ i < n,
    let keep : Nat → K := fun j => if A i j ≤ tol * m then 0 else A i j
    let sum := ∑ j ∈ Finset.range n, keep j
    ∀ j < n, B i j = if sum = 0 then keep j else keep j / sum

/-- Random walk on a graph: the identity minus its Laplacian. -/
noncomputable def walk (n : Nat) (G : Nat → Nat → Prop) : Mat K := fun i j =>
  eye i j - walkLaplacian n G i j

/-- An undirected graph on `0..n-1` without self-loops. -/
structure Undirected (n : Nat) (G : Nat → Nat → Prop) : Prop where
  symm : ∀ i j, G i j → G j i
  noLoop : ∀ i, ¬ G i i
  inRange : ∀ i j, G i j → i < n ∧ j < n

/-- The labels are those of the connected components. -/
def Components (n : Nat) (G : Nat → Nat → Prop) (lab : Nat → Nat) : Prop :=
  ∀ i < n, ∀ j < n, lab i = lab j ↔ Relation.ReflTransGen G i j

end Verif.Trans
