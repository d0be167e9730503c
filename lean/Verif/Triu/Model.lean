import Verif.Csr.Lemmas

/-!
# Model of the normalisation of a symmetric matrix stored as its upper triangle

`cython_inplace_csr_row_normalize_triu` (_cython_sparse_stoch.pyx:523-591).  The matrix is
given by its rows, the slices `indptr[i]:indptr[i+1]` of the arrays `indices` and `data`;
`indices` and `indptr` never change.
-/

set_option linter.dupNamespace false

namespace Verif.Triu

open Verif.Csr

variable {K : Type} [Field K] [LinearOrder K] [IsStrictOrderedRing K]

/-- The rows of a CSR matrix: column and value of the stored entries. -/
abbrev Rows (K : Type) := Nat → List (Nat × K)

/-- `csr_diagonal` (_cython_sparse_stoch.pyx:565-567). -/
def diagOf (R : Rows K) (i : Nat) : K := sumAt (R i) i

/-- `X.T @ 1` by `csc_matvec` (_cython_sparse_stoch.pyx:569-571). -/
def colSum (n : Nat) (R : Rows K) (i : Nat) : K := ∑ j ∈ Finset.range n, sumAt (R j) i

/-- The loop `for i in range(k, n_row)` (_cython_sparse_stoch.pyx:573-591): diagonal and column
sums are those before the loop, and every turn changes its own row only.  `sum_/row_sum_tmp` with a
zero divisor is infinite in C, and dividing by it gives zero, as `x / (s / 0) = 0` here. -/
def pass (n : Nat) (r : Nat → K) (k : Nat) (R : Rows K) : Rows K := fun i =>
  if k ≤ i ∧ i < n then
    let tmp := r i + diagOf R i - colSum n R i
    let s := ((R i).map Prod.snd).sum
    if s = 0 then R i else (R i).map fun e => (e.1, e.2 / (s / tmp))
  else R i

/-- `cython_inplace_csr_row_normalize_triu` (_cython_sparse_stoch.pyx:523-591), up to and without
row `m`. -/
def passes (n : Nat) (r : Nat → K) (m : Nat) (R : Rows K) : Rows K :=
  (List.range m).foldl (fun R k => if r k ≠ 0 then pass n r k R else R) R

/-- `cython_inplace_csr_row_normalize_triu` (_cython_sparse_stoch.pyx:523-591) on a square
matrix with `n` rows; `none` is the failed assertion for other shapes (557). -/
def normalizeTriu (nrow ncol : Nat) (r : Nat → K) (R : Rows K) : Option (Rows K) :=
  if nrow = ncol then some (passes nrow r nrow R) else none

end Verif.Triu
