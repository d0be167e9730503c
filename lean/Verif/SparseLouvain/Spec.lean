import Verif.SparseLouvain.Model
import Verif.Autocov.AggLemmas
import Verif.Louvain.Spec

/-!
# Vocabulary for the statements about the sparse clustering
-/

set_option linter.unusedSectionVars false
set_option linter.dupNamespace false

namespace Verif.SparseLouvain

open Verif.Partition Verif.Autocov Verif.Csr

variable {K : Type} [Field K] [LinearOrder K] [IsStrictOrderedRing K]

/-- A result of the dense code as a result of the sparse code: same value, same
exception. -/
def lift {α : Type} : Except Verif.Partition.Err α → Except SErr α
  | .ok a => .ok a
  | .error e => .error (.part e)

/-- Only positive numbers are stored, in both copies. -/
structure Tight (A : Autocov K) : Prop where
  rows : ∀ i < A.PT.nrows, ∀ e ∈ A.PT.row i, 0 < e.2
  cols : ∀ i < A.PT.nrows, ∀ e ∈ A.PTcsc.row i, 0 < e.2 ∧ e.1 < A.PT.nrows

/-- What is asked of the stored covariance. -/
structure Fit (A : Autocov K) : Prop where
  good : Good A
  sym : SymmetricOk A
  norm : Normalised A.PT.nrows A.w
  tight : Tight A
  pos : 0 < A.PT.nrows
  nonempty : ∀ i < A.PT.nrows, A.PT.row i ≠ []

/-- The dense covariance `S` has the values of the stored one and the dense transition matrix
`T` its pattern. -/
structure Dense (A : Autocov K) (S T : Nat → Nat → K) : Prop where
  cov : ∀ i < A.PT.nrows, ∀ j < A.PT.nrows, A.toarray i j = S i j
  nonneg : ∀ i < A.PT.nrows, ∀ j < A.PT.nrows, 0 ≤ T i j
  pattern : ∀ i < A.PT.nrows, ∀ j < A.PT.nrows, (0 < T i j ↔ 0 < A.PT.val i j)

/-- The conditions of `Fit` other than the one on rows without stored entries. -/
structure Fit0 (A : Autocov K) : Prop where
  good : Good A
  sym : SymmetricOk A
  norm : Normalised A.PT.nrows A.w
  tight : Tight A
  pos : 0 < A.PT.nrows

/-- Node 0 exchanges nothing with the others, and each of the others has stored entries. -/
structure Iso (A : Autocov K) : Prop where
  two : 1 < A.PT.nrows
  rows : ∀ i < A.PT.nrows, i ≠ 0 → A.PT.row i ≠ []
  alone : ∀ j < A.PT.nrows, j ≠ 0 → ¬ 0 < A.PT.val 0 j ∧ ¬ 0 < A.PT.val j 0

/-- As `Dense`, but the diagonal of `T` may differ from the stored pattern. -/
structure Dense0 (A : Autocov K) (S T : Nat → Nat → K) : Prop where
  cov : ∀ i < A.PT.nrows, ∀ j < A.PT.nrows, A.toarray i j = S i j
  nonneg : ∀ i < A.PT.nrows, ∀ j < A.PT.nrows, 0 ≤ T i j
  rowpos : ∀ i < A.PT.nrows, 0 < Verif.Louvain.rowSum A.PT.nrows T i
  pattern : ∀ i < A.PT.nrows, ∀ j < A.PT.nrows, i ≠ j → (0 < T i j ↔ 0 < A.PT.val i j)

/-- The object is in the state left by its constructor with the default partition: one
node per cluster. -/
def Fresh (c : SClu K) : Prop := mkS c.A .none = .ok c

end Verif.SparseLouvain
