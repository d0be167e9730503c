import Verif.SparseStoch.Model
import Verif.Csr.Spec

/-!
# Vocabulary for the statements about compressed stochastic matrices
-/

namespace Verif.SparseStoch

open Verif.Csr

variable {K : Type} [Field K] [LinearOrder K] [IsStrictOrderedRing K]

/-- A well-formed compressed matrix: kept indices strictly increasing and inside the
matrix, and a well-formed square block with one row and column per kept index. -/
structure SSM.WF (A : SSM K) : Prop where
  sorted : A.nz.Pairwise (· < ·)
  inside : ∀ i ∈ A.nz, i < A.size
  block : A.small.WF
  rows : A.small.nrows = A.nz.length
  cols : A.small.ncols = A.nz.length

/-- The dense matrix a compressed matrix stands for: the block on the kept indices,
`diag` on the rest of the diagonal, 0 elsewhere. -/
def SSM.dense (A : SSM K) (i j : Nat) : K :=
  if i ∈ A.nz ∧ j ∈ A.nz then A.small.val (A.nz.idxOf i) (A.nz.idxOf j)
  else if i = j then A.diag else 0

/-- Outside the listed rows and columns the matrix is `diag` times the identity. -/
def IdentityOutside (T : Csr K) (nz : List Nat) (diag : K) : Prop :=
  ∀ i < T.nrows, ∀ j < T.nrows, i ∉ nz ∨ j ∉ nz → T.val i j = if i = j then diag else 0

end Verif.SparseStoch
