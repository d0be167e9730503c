import Verif.Csr.Model

/-!
# Well-formed compressed rows
-/

set_option linter.dupNamespace false

namespace Verif.Csr

variable {K : Type} [Field K] [LinearOrder K] [IsStrictOrderedRing K]

/-- The invariants scipy guarantees for a `csr_matrix` (its `check_format`): one pointer
per row plus one, starting at 0, non-decreasing, ending at the number of stored entries;
column indices inside the shape. -/
structure Csr.WF (M : Csr K) : Prop where
  ptrLen : M.indptr.length = M.nrows + 1
  ptrZero : M.indptr.getD 0 0 = 0
  mono : ∀ i < M.nrows, M.indptr.getD i 0 ≤ M.indptr.getD (i + 1) 0
  last : M.indptr.getD M.nrows 0 = M.data.length
  lens : M.indices.length = M.data.length
  bound : ∀ c ∈ M.indices, c < M.ncols

/-- No column is stored twice in a row. -/
def Csr.NoRepeats (M : Csr K) : Prop := ∀ i < M.nrows, ((M.row i).map Prod.fst).Nodup

/-- No stored entry is zero. -/
def Csr.NoZeros (M : Csr K) : Prop := ∀ i < M.nrows, ∀ e ∈ M.row i, e.2 ≠ 0

end Verif.Csr
