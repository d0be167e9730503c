import Mathlib.Analysis.SpecialFunctions.Pow.Real
import Mathlib.Algebra.BigOperators.Field

/-!
# Model of `find_spectral_gap`

temporal_network.py:2377-2401.  Real numbers stand for doubles; the matrix is given by its
dense values.  The eigenvalue routine of scipy is not modelled: `Nearest` says what its
documentation promises for a symmetric matrix with `sigma=0`.
-/

namespace Verif.Spectral

/-- `np.diff((I - Lcsr).indptr)` (temporal_network.py:2381-2385): scipy's difference stores
the values that are not zero. -/
noncomputable def degs (n : Nat) (L : Nat → Nat → ℝ) (i : Nat) : ℝ :=
  (((Finset.range n).filter fun j => (if i = j then 1 else 0) - L i j ≠ 0).card : ℝ)

/-- `Lsym = D12 @ Lcsr @ Dm12` (temporal_network.py:2387-2392). -/
noncomputable def lsym (n : Nat) (L : Nat → Nat → ℝ) (i j : Nat) : ℝ :=
  Real.sqrt (degs n L i) * L i j * (1 / Real.sqrt (degs n L j))

/-- `Pi = np.vstack([degs/degs.sum()]*L.shape[0])` (temporal_network.py:2395). -/
noncomputable def piMat (n : Nat) (L : Nat → Nat → ℝ) (_i j : Nat) : ℝ :=
  degs n L j / ∑ k ∈ Finset.range n, degs n L k

/-- The matrix handed to `eigsh` (temporal_network.py:2398). -/
noncomputable def gapMat (n : Nat) (L : Nat → Nat → ℝ) (i j : Nat) : ℝ :=
  lsym n L i j - piMat n L i j

end Verif.Spectral
