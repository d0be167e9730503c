import Mathlib.Algebra.Order.Field.Basic
import Mathlib.Algebra.BigOperators.Group.List.Basic
import Mathlib.Data.List.Flatten

/-!
# Compressed sparse rows

The three arrays of `scipy.sparse.csr_matrix` as the package reads and writes them
(`src/flowstab/sparse_stoch_mat.py:33-41, 129-134`,
`src/flowstab/_cython_subst.py:9-36`): row `i` is the slice
`indptr[i]:indptr[i+1]` of `indices` and `data`.
-/

set_option linter.dupNamespace false

namespace Verif.Csr

variable {K : Type} [Field K] [LinearOrder K] [IsStrictOrderedRing K]

/-- A `csr_matrix`: shape and the arrays `indptr`, `indices`, `data`.  Column indices are
natural numbers (the `-1` fillers of `_cython_subst.py:15` are cut off by scipy before
any use). -/
structure Csr (K : Type) where
  nrows : Nat
  ncols : Nat
  indptr : List Nat
  indices : List Nat
  data : List K

/-- `zip(data[indptr[i]:indptr[i+1]], indices[indptr[i]:indptr[i+1]])`
(`_cython_subst.py:147-148`), as pairs (column, value). -/
def Csr.row (M : Csr K) (i : Nat) : List (Nat × K) :=
  ((M.indices.zip M.data).drop (M.indptr.getD i 0)).take
    (M.indptr.getD (i + 1) 0 - M.indptr.getD i 0)

/-- Value at a column of a row given by its stored entries; scipy adds up repeated
entries. -/
def sumAt (r : List (Nat × K)) (j : Nat) : K :=
  ((r.filter fun e => e.1 == j).map Prod.snd).sum

/-- `M[i, j]`. -/
def Csr.val (M : Csr K) (i j : Nat) : K := sumAt (M.row i) j

/-- The output arrays under construction: the entries written so far and the row
pointers set so far (`_cython_subst.py:20-30, 141-182`). -/
structure Build (K : Type) where
  entries : List (Nat × K)
  indptr : List Nat

/-- Before the first row: `indptr[0] = 0` (`_cython_subst.py:21, 141`). -/
def Build.empty : Build K := ⟨[], [0]⟩

/-- Write the entries of one row and set the next pointer
`indptr[r+1] = indptr[r] + nzr` (`_cython_subst.py:24-30, 168-181`). -/
def Build.push (b : Build K) (r : List (Nat × K)) : Build K :=
  ⟨b.entries ++ r, b.indptr ++ [(b.entries ++ r).length]⟩

/-- All rows written one after the other. -/
def Build.ofRows (rows : List (List (Nat × K))) : Build K :=
  rows.foldl Build.push Build.empty

/-- `csr_matrix((data, indices, indptr), shape=(m, n))` for arrays that fit. -/
def Build.toCsr (b : Build K) (m n : Nat) : Csr K :=
  ⟨m, n, b.indptr, b.entries.map Prod.fst, b.entries.map Prod.snd⟩

/-- A matrix given row by row. -/
def ofRows (ncols : Nat) (rows : List (List (Nat × K))) : Csr K :=
  (Build.ofRows rows).toCsr rows.length ncols

/-- The rows of a matrix. -/
def Csr.rows (M : Csr K) : List (List (Nat × K)) := (List.range M.nrows).map M.row

/-- A row with sorted columns and repeated entries added up, as scipy's arithmetic
returns it; `dropZero` leaves out entries that come out as zero (scipy `csr_binop_csr`,
used by `+` and `-` in sparse_stoch_mat.py:285-298, 464-476). -/
def canonRow (ncols : Nat) (dropZero : Bool) (r : List (Nat × K)) : List (Nat × K) :=
  (List.range ncols).filterMap fun j =>
    if r.any (fun e => e.1 == j) && !(dropZero && decide (sumAt r j = 0)) then
      some (j, sumAt r j)
    else none

/-- `M + d * eye(M.shape[0], format="csr")` (sparse_stoch_mat.py:296, 285 with `-d`). -/
def Csr.addEye (M : Csr K) (d : K) : Csr K :=
  ofRows M.ncols ((List.range M.nrows).map fun i => canonRow M.ncols true (M.row i ++ [(i, d)]))

/-- `A @ B` for two scipy matrices (sparse_stoch_mat.py:482). -/
def Csr.matmul (A B : Csr K) : Csr K :=
  ofRows B.ncols ((List.range A.nrows).map fun i =>
    canonRow B.ncols false
      ((A.row i).flatMap fun e => (B.row e.1).map fun f => (f.1, e.2 * f.2)))

/-- `M.transpose().tocsr()` (sparse_stoch_mat.py:306). -/
def Csr.transpose (M : Csr K) : Csr K :=
  ofRows M.nrows ((List.range M.ncols).map fun j =>
    (List.range M.nrows).flatMap fun i =>
      ((M.row i).filter fun e => e.1 == j).map fun e => (i, e.2))

/-- `M.data * o`, same pattern (sparse_stoch_mat.py:519-524). -/
def Csr.scale (M : Csr K) (o : K) : Csr K := { M with data := M.data.map (· * o) }

end Verif.Csr
