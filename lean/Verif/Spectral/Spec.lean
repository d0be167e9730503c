import Verif.Spectral.Model

/-!
# Eigenvalues, graphs and the spectral gap
-/

namespace Verif.Spectral

/-- `mu` is an eigenvalue of the `n` by `n` matrix. -/
def Eigen (n : Nat) (M : Nat → Nat → ℝ) (mu : ℝ) : Prop :=
  ∃ x : Nat → ℝ, (∃ i < n, x i ≠ 0) ∧ ∀ i < n, ∑ j ∈ Finset.range n, M i j * x j = mu * x i

/-- The eigenvalue nearest to zero: what `eigsh(M, 1, sigma=0)` promises for a symmetric
matrix (temporal_network.py:2398). -/
def Nearest (n : Nat) (M : Nat → Nat → ℝ) (g : ℝ) : Prop :=
  Eigen n M g ∧ ∀ mu, Eigen n M mu → |g| ≤ |mu|

/-- The spectral gap of a Laplacian: its smallest eigenvalue that is not zero. -/
def Gap (n : Nat) (L : Nat → Nat → ℝ) (g : ℝ) : Prop :=
  Eigen n L g ∧ g ≠ 0 ∧ ∀ mu, Eigen n L mu → mu ≠ 0 → g ≤ mu

/-- The matrix is symmetric. -/
def Symm (n : Nat) (M : Nat → Nat → ℝ) : Prop := ∀ i < n, ∀ j < n, M i j = M j i

/-- An undirected graph on the numbers below `n` in which every node has a neighbour. -/
structure Graph (n : Nat) (adj : Nat → Nat → Bool) : Prop where
  symm : ∀ i < n, ∀ j < n, adj i j = adj j i
  pos : ∀ i < n, ∃ j < n, adj i j = true

/-- Number of neighbours. -/
def degree (n : Nat) (adj : Nat → Nat → Bool) (i : Nat) : Nat :=
  ((Finset.range n).filter fun j => adj i j = true).card

/-- The random-walk Laplacian `I - D⁻¹ A`. -/
noncomputable def lap (n : Nat) (adj : Nat → Nat → Bool) (i j : Nat) : ℝ :=
  (if i = j then 1 else 0) - (if adj i j then 1 / (degree n adj i : ℝ) else 0)

/-- A set of nodes that contains the neighbours of its nodes is empty or everything. -/
def Connected (n : Nat) (adj : Nat → Nat → Bool) : Prop :=
  ∀ S : Nat → Prop, (∃ i < n, S i) → (∀ i < n, ∀ j < n, S i → adj i j = true → S j) →
    ∀ i < n, S i

/-- Every node has `r` neighbours. -/
def Regular (n : Nat) (adj : Nat → Nat → Bool) (r : Nat) : Prop := ∀ i < n, degree n adj i = r

end Verif.Spectral
