import Verif.Csr.Model
import Verif.Autocov.Model
import Verif.SparseStoch.Model

/-!
# Model of the free-standing helper functions on sparse matrices

`sparse_outer` (sparse_stoch_mat.py:1101-1150), `csc_row_normalize`, `remove_nnz_rowcol`,
`numpy_rebuild_nnz_rowcol` and `set_to_ones` (temporal_network.py:2364-2490, 2639-2643), and
`compute_S_0t0` (_cython_fast_funcs.pyx:94-115).
-/

namespace Verif.Helpers

open Verif.Csr Verif.Autocov

variable {K : Type} [Field K] [LinearOrder K] [IsStrictOrderedRing K]

/-- Exceptions. -/
inductive HErr
  | assertion
  | value
  | index
  | zeroDivision
deriving DecidableEq, Repr

/-! ## `sparse_outer` -/

/-- `p.eliminate_zeros(); p.sort_indices()` (sparse_stoch_mat.py:1125-1126), in place. -/
def tidy (p : Csr K) : Csr K :=
  ofRows p.ncols ((List.range p.nrows).map fun i =>
    sortRow p.ncols ((p.row i).filter fun e => decide (e.2 ≠ 0)))

/-- `np.outer(d, d)[np.triu_indices(d.size)]` (sparse_stoch_mat.py:1130, 1134). -/
def outerUpper (d : List K) : List K :=
  (List.range d.length).flatMap fun a =>
    ((List.range d.length).filter fun b => decide (a ≤ b)).map fun b => d.getD a 0 * d.getD b 0

/-- `np.outer(d, d).reshape(d.size**2, 1)` (sparse_stoch_mat.py:1136); `gram_matrix_mkl`
(1132) leaves the places below the diagonal at zero. -/
def outerAll (mkl : Bool) (d : List K) : List K :=
  (List.range d.length).flatMap fun a => (List.range d.length).map fun b =>
    if mkl && decide (b < a) then 0 else d.getD a 0 * d.getD b 0

/-- `[p.indices[p.indices >= r] for r in p.indices]` (sparse_stoch_mat.py:1139), or the same
list for each (1143). -/
def indexLists (triu : Bool) (ix : List Nat) : List (List Nat) :=
  ix.map fun r => if triu then ix.filter fun c => decide (r ≤ c) else ix

/-- `num_per_row` (sparse_stoch_mat.py:1140-1141, 1144): the lengths in turn for the rows
that occur; there are at least as many lengths as rows that occur, so `next` never fails. -/
def numPerRow (triu : Bool) (ix : List Nat) : (lens : List Nat) → List Nat → List Nat
  | _, [] => []
  | lens, r :: rs =>
    if r ∈ ix then
      if triu then
        match lens with
        | [] => 0 :: numPerRow triu ix [] rs
        | x :: l => x :: numPerRow triu ix l rs
      else ix.length :: numPerRow triu ix lens rs
    else 0 :: numPerRow triu ix lens rs

/-- `np.cumsum([0] + l)`. -/
def cumsum : Nat → List Nat → List Nat
  | s, [] => [s]
  | s, x :: l => s :: cumsum (s + x) l

/-- `sparse_outer(p, use_mkl, triu)` (sparse_stoch_mat.py:1101-1150); `mkl` stands for
`USE_SPARSE_DOT_MKL and use_mkl`.  `np.concatenate` of no lists raises `ValueError`; so does
the constructor on the 0-dimensional array that `squeeze` makes of a single value, and on
arrays of different lengths.  Returns the outcome and the state of `p` afterwards.  Simplified:
entries behind the last row pointer, which the constructor cuts off and which occur only with
repeated columns, stay in the arrays. -/
def sparseOuter (mkl triu : Bool) (p : Csr K) : Except HErr (Csr K) × Csr K :=
  if p.nrows ≠ 1 then (.error .assertion, p)
  else
    let q := tidy p
    let d := q.data
    let ix := q.indices
    let data := if triu then outerUpper d else outerAll mkl d
    let lists := indexLists triu ix
    if lists = [] then (.error .value, q)
    else if triu = false ∧ d.length = 1 then (.error .value, q)
    else if lists.flatten.length ≠ data.length then (.error .value, q)
    else
      (.ok ⟨q.ncols, q.ncols,
        cumsum 0 (numPerRow triu ix (lists.map List.length) (List.range q.ncols)),
        lists.flatten, data⟩, q)

/-! ## Rows divided by their sums, values close to one -/

/-- One row of `csc_row_normalize` (temporal_network.py:2370-2373). -/
def divRow (r : List (Nat × K)) : List (Nat × K) :=
  let s := (r.map Prod.snd).sum
  if s ≠ 0 then r.map fun e => (e.1, e.2 / s) else r

/-- The loop of `csc_row_normalize` on the CSR arrays (temporal_network.py:2370-2373). -/
def divRows (M : Csr K) : Csr K := ofRows M.ncols (M.rows.map divRow)

/-- `csc_row_normalize(X)` for `X` in CSC format, given by the CSR arrays of its transpose
(temporal_network.py:2364-2375): `tocsr` makes a new matrix, `tocsc` the result, again given
by its transpose. -/
def cscRowNormalize (Xt : Csr K) : Csr K := (divRows Xt.transpose).transpose

/-- `csc_row_normalize(X)` for `X` in CSR format: `X.tocsr()` is `X` itself, so the loop works
on the matrix of the caller.  The result, and `X` afterwards. -/
def csrRowNormalize (X : Csr K) : Csr K × Csr K := ((divRows X).transpose, divRows X)

/-- `set_to_ones(Tcsr, tol)` (temporal_network.py:2639-2643). -/
def setToOnes (tol : K) (M : Csr K) : Csr K :=
  { M with data := M.data.map fun x => if |x - 1| ≤ tol then 1 else x }

/-! ## Removing and adding empty rows and columns -/

/-- `nonzerosum_rowcols`, `nonzero_indices` of `remove_nnz_rowcol`
(temporal_network.py:2415-2418): rows or columns with a stored entry. -/
def occupied (L : Csr K) : List Nat :=
  (List.range L.nrows).filter fun i =>
    !(L.row i).isEmpty || L.indices.any fun c => c == i

/-- `remove_nnz_rowcol(L)` (temporal_network.py:2403-2420): the block, the kept indices and
the size.  `L[mask][:, mask]` keeps the entries of the kept rows and columns. -/
def removeNnz (L : Csr K) : Csr K × List Nat × Nat :=
  let nz := occupied L
  (ofRows nz.length (nz.map fun i =>
      ((L.row i).filter fun e => decide (e.1 ∈ nz)).map fun e => (nz.idxOf e.1, e.2)),
    nz, L.nrows)

/-- One row of `numpy_rebuild_nnz_rowcol` (temporal_network.py:2463-2486). -/
def zeroRow (T : Csr K) (zs newCols : List Nat) (st : Nat × Build K) (rowId : Nat) :
    Nat × Build K :=
  if rowId ∈ zs then (st.1, st.2.push [(rowId, 1)])
  else (st.1 + 1, st.2.push ((T.row st.1).map fun e => (newCols.getD e.1 0, e.2)))

/-- `numpy_rebuild_nnz_rowcol(T_data, T_indices, T_indptr, zero_indices)`
(temporal_network.py:2427-2490).  The array `new_col_inds` has a place for each row of `T`;
writing behind it raises `IndexError`, as does a column number behind it. -/
def rebuildZeros (T : Csr K) (zs : List Nat) : Except HErr (Csr K) :=
  let n := T.nrows + zs.length
  let newCols := (List.range n).filter fun i => decide (i ∉ zs)
  if T.nrows < newCols.length then .error .index
  else if T.indices.any fun c => decide (T.nrows ≤ c) then .error .index
  else .ok (((List.range n).foldl (zeroRow T zs newCols) (0, Build.empty)).2.toCsr n n)

/-! ## The forward covariance, dense -/

/-- `compute_S_0t0(p0, pt, T)` (_cython_fast_funcs.pyx:94-115) with the shape `(n, n)`;
division by zero raises `ZeroDivisionError` (Cython without `cdivision`). -/
def computeS0t0 (n : Nat) (p0 pt : Nat → K) (T : Nat → Nat → K) : Except HErr (Nat → Nat → K) :=
  if (List.range n).any fun k => decide (pt k = 0) then .error .zeroDivision
  else .ok fun i j =>
    (List.range n).foldl (fun s k => s + p0 i * T i k * (1 / pt k) * T j k * p0 j) 0 - p0 i * p0 j

end Verif.Helpers
