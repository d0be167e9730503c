import Verif.SparseStoch.Model

/-!
# Model of the widths of the index arrays

`SparseStochMat` (`src/flowstab/sparse_stoch_mat.py`) stores the row and column numbers of
its block as 32-bit integers.  The in-place row normalisation replaces them by 64-bit ones.
The compiled helper routines (`_cython_sparse_stoch.pyx`) declare the exact type of every
array they take: `int[:]` takes 32-bit integers only, `long long[:]` takes 64-bit integers
only, and anything else is a `ValueError` when the routine is called.  The Python version
of the routines takes both.

The numbers are those of `Verif.SparseStoch`; this model adds the width to each matrix.
scipy's `sort_indices`, `eliminate_zeros` keep the arrays' type.  Matrices so large that
scipy itself needs 64-bit indices are not modelled.
-/

namespace Verif.Widths

open Verif.Csr Verif.SparseStoch

variable {K : Type} [Field K] [LinearOrder K] [IsStrictOrderedRing K]

/-- The integer type of `indices` and `indptr`. -/
inductive Width
  | int32 | int64
  deriving DecidableEq, Repr

/-- Exceptions: a buffer of the wrong type, or one of those of the numbers. -/
inductive Fail
  | bufferType | other (e : SparseStoch.Err)
  deriving DecidableEq, Repr

/-- A `SparseStochMat` with the type of its index arrays. -/
structure WMat (K : Type) where
  mat : SSM K
  width : Width

/-- What the constructor makes (sparse_stoch_mat.py:133-136): `np.array(…, dtype=np.int32)`. -/
def built (r : Except SparseStoch.Err (SSM K)) : Except Fail (WMat K) :=
  match r with
  | .error e => .error (.other e)
  | .ok m => .ok ⟨m, .int32⟩

/-- The check of the arguments of a compiled routine with parameters `int[:]`. -/
def accepts32 (be : Backend) (w : Width) : Bool :=
  match be with
  | .python => true
  | .compiled => decide (w = .int32)

/-- `SparseStochMat.from_full_csr_matrix` on a matrix whose indices have the given width
(sparse_stoch_mat.py:196-203, pyx 596-600). -/
def wFromFull (be : Backend) (T : Csr K) (w : Width) (d : K) : Except Fail (WMat K) :=
  if accepts32 be w then built (fromFull be T d) else .error .bufferType

/-- `A + B` (sparse_stoch_mat.py:329-361, pyx 90-101): `stoch_mat_add` takes the index
arrays of both blocks as `int[:]`. -/
def wAdd (be : Backend) (A B : WMat K) : Except Fail (WMat K) :=
  if accepts32 be A.width && accepts32 be B.width then built (A.mat.add B.mat)
  else .error .bufferType

/-- `A - B` (sparse_stoch_mat.py:371-403, pyx 216-227). -/
def wSub (be : Backend) (A B : WMat K) : Except Fail (WMat K) :=
  if accepts32 be A.width && accepts32 be B.width then built (A.mat.sub B.mat)
  else .error .bufferType

/-- `sub_diag` (sparse_stoch_mat.py:281-289): no compiled routine is called. -/
def wSubDiag (A : WMat K) (d : K) : Except Fail (WMat K) := built (A.mat.subDiag d)

/-- `A` itself when the factor is 1.0, `factor * A` otherwise
(sparse_stoch_mat.py:434-442). -/
def wScaledBy (A : WMat K) (b : K) : Except Fail (WMat K) :=
  if b = 1 then .ok A else built (A.mat.smul b)

/-- `A @ B` (sparse_stoch_mat.py:410-497). -/
def wMatmul (be : Backend) (A B : WMat K) : Except Fail (WMat K) := do
  let aB ← wScaledBy B A.mat.diag
  let bA ← wScaledBy A B.mat.diag
  if interLen A.mat B.mat = 0 then
    wSubDiag (← wAdd be bA aB) (A.mat.diag * B.mat.diag)
  else
    let cm ← built (do
      let cnz := unique (A.mat.nz ++ B.mat.nz)
      let acol ← colMap cnz 0 A.mat.nz
      let bcol ← colMap cnz 0 B.mat.nz
      let am ← fromSmall cnz.length (A.mat.small.addEye (-A.mat.diag)) acol 0
      let bm ← fromSmall cnz.length (B.mat.small.addEye (-B.mat.diag)) bcol 0
      let af ← am.toFull
      let bf ← bm.toFull
      fromSmall A.mat.size (af.matmul bf) cnz 0)
    let s ← wSubDiag (← wAdd be bA aB) (A.mat.diag * B.mat.diag)
    wAdd be cm s

/-- `inplace_row_normalize` (sparse_stoch_mat.py:222-232): both index arrays are replaced
by 64-bit copies and stay so. -/
def wNormalize (be : Backend) (s : K) (A : WMat K) : WMat K := ⟨A.mat.rowNormalize be s, .int64⟩

/-- `inplace_csr_row_normalize` on a CSR matrix (sparse_stoch_mat.py:574-577), with the
type of its index arrays afterwards. -/
def csrNormalize (be : Backend) (s : K) (T : Csr K) : Csr K × Width :=
  (SparseStoch.rowNormalize be s T, .int64)

/-- `set_to_zeroes` of temporal_network.py:2646-2665 with its default options on a
compressed matrix (sparse_stoch_mat.py:235-248). -/
def wTrim (tol : Option K) (A : WMat K) : WMat K := ⟨setToZeroesSSM tol true false A.mat, A.width⟩

/-! ## `compute_transition_matrices` on compressed matrices -/

/-- What a network holds for one rate: `inter_T[lamda]`, in the order in which the products
use it, and `T[lamda]` once it exists. -/
structure Net (K : Type) where
  inter : List (WMat K)
  T : Option (List (WMat K))

/-- What a call does: `return`, or raises. -/
inductive Outcome
  | done | raised (e : Fail) | indexError
  deriving DecidableEq, Repr

/-- `if tol is not None: set_to_zeroes(X, tol); inplace_csr_row_normalize(X)`
(temporal_network.py:1605-1607, 1614-1616, 1631-1633). -/
def prepare (be : Backend) (tol : Option K) (A : WMat K) : WMat K :=
  match tol with
  | none => A
  | some t => wNormalize be 1 (wTrim (some t) A)

/-- What happens to a fresh product (temporal_network.py:1639-1643, 1646-1650): trimmed if
a tolerance is given, row-normalised always. -/
def finish (be : Backend) (tol : Option K) (A : WMat K) : WMat K := wNormalize be 1 (wTrim tol A)

/-- `self.T[lamda]` after a product: appended, or replaced when `save_intermediate` is off
(temporal_network.py:1636-1650). -/
def keep (save : Bool) (T : List (WMat K)) (C : WMat K) : List (WMat K) :=
  if save then T ++ [C] else [C]

/-- The loop over the remaining inter-event matrices (temporal_network.py:1623-1650).
`before` are the matrices already used, as they are now; the last of `T` is the current
product. -/
def productLoop (be : Backend) (tol : Option K) (save : Bool) :
    List (WMat K) → WMat K → List (WMat K) → List (WMat K) → Net K × Outcome
  | before, _, T, [] => (⟨before, some T⟩, .done)
  | before, cur, T, B :: rest =>
    let B' := prepare be tol B
    match wMatmul be cur B' with
    | .error e => (⟨before ++ B' :: rest, some T⟩, .raised e)
    | .ok C =>
      productLoop be tol save (before ++ [B']) (finish be tol C) (keep save T (finish be tol C)) rest

/-- `compute_transition_matrices` (temporal_network.py:1568-1652) with `force_csr` off.
Nothing happens when `T[lamda]` exists.  The first matrix of `T` is the first inter-event
matrix itself, not a copy.  The order of `inter` is that of `k_init` and `k_range`. -/
def computeT (be : Backend) (tol : Option K) (save : Bool) (n : Net K) : Net K × Outcome :=
  match n.T with
  | some _ => (n, .done)
  | none =>
    match n.inter with
    | [] => (n, .indexError)
    | A :: rest =>
      let A' := prepare be tol A
      productLoop be tol save [A'] A' [A'] rest

end Verif.Widths
