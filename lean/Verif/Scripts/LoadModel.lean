import Verif.Scripts.CovModel
import Verif.Scripts.CompModel

/-!
# Model of `load_autocov_int`

`src/flowstab/scripts/run_clusterings.py:226-385`: the covariance that `run_clusterings` builds
from a file with an integral, before the options for connected components (modelled in
`Verif.Comps`).  Dense matrices hold the values of the sparse ones; a sum of sparse matrices
stores its nonzero entries, in the order of the columns.  Messages and the reported deviations of
the sums are not modelled.
-/

namespace Verif.Scripts.Load

open Verif.Trans Verif.Autocov Verif.Csr Verif.Scripts

variable {K : Type} [Field K] [LinearOrder K] [IsStrictOrderedRing K]

/-- Exceptions. -/
inductive LErr
  | typeError
  | keyError
  | valueError
  deriving DecidableEq, Repr

/-- A sparse matrix in a file: its format is `coo` or one of `csr` and `csc`. -/
structure Stored (K : Type) where
  coo : Bool
  mat : Mat K

/-- Content of a file: `ITPT` and `integration_time`, and the entries `ITPTback`, `p1` and `p2`
that only some files have. -/
structure Pickle (K : Type) where
  itpt : Stored K
  time : K
  back : Option (Stored K)
  p1 : Option (Nat → K)
  p2 : Option (Nat → K)

/-- The file as `run_cov_integrals` writes it (run_cov_integrals.py:654-656, 667-669):
`scipy.sparse.triu` without the argument `format` returns a `coo` matrix. -/
def pickled (v : Saved K) : Pickle K := ⟨⟨true, v.itpt⟩, v.time, none, none, none⟩

/-- `set_to_zeroes(ITPT, integral_rtol)` (temporal_network.py:2646-2668; called in
run_clusterings.py:257, 332). -/
def setToZeroes (n : Nat) (m : Stored K) : Option K → Except LErr (Mat K)
  | none => .ok m.mat
  | some tol =>
    if m.coo then .error .typeError
    else .ok fun i j => if m.mat i j ≤ tol * maxAbs n m.mat then 0 else m.mat i j

/-- `ITPT + ITPT.T - diags(ITPT.diagonal())` (run_clusterings.py:262, 343). -/
def bothTriangles (A : Mat K) : Mat K := fun i j => A i j + A j i - if i = j then A i i else 0

/-- `inplace_csr_row_normalize(ITPT, p)` (run_clusterings.py:285, 360;
sparse_stoch_mat.py:537-582, `_cython_subst.py` and pyx): rows that sum to zero are left alone;
if the wanted sum is zero, the mean of the stored entries is subtracted from them. -/
def normRows (n : Nat) (p : Nat → K) (A : Mat K) : Mat K := fun i j =>
  let s := ∑ k ∈ Finset.range n, A i k
  if s = 0 then A i j
  else if p i = 0 then
    if A i j = 0 then 0 else A i j - s / (((List.range n).filter fun k => decide (A i k ≠ 0)).length : K)
  else A i j / (s / p i)

/-- The loop of the normalisation (run_clusterings.py:284-286, 359-361). -/
def normIter (n : Nat) (p : Nat → K) : Nat → Mat K → Mat K
  | 0, A => A
  | m + 1, A => normIter n p m fun i j => (normRows n p A i j + normRows n p A j i) / 2

/-- A csr matrix with the nonzero entries of a dense one. -/
def ofMat (n : Nat) (A : Mat K) : Csr K :=
  ofRows n ((List.range n).map fun i => (List.range n).filterMap fun j =>
    if A i j = 0 then none else some (j, A i j))

/-- `load_autocov_int` with `init_p1=False` (run_clusterings.py:236-303).  `rtol` is
`integral_rtol`; `norm` is the number of iterations of the normalisation, if there is one. -/
def loadUniform (n : Nat) (rtol : Option K) (norm : Option Nat) (f : Pickle K) :
    Except LErr (Autocov K) :=
  match setToZeroes n f.itpt rtol with
  | .error e => .error e
  | .ok A =>
    let A : Mat K := fun i j => A i j * (1 / f.time)
    let A := bothTriangles A
    let A : Mat K := fun i j => A i j * uniform n i * uniform n j
    let A := match norm with
      | none => A
      | some m => normIter n (uniform n) m A
    .ok (mkAutocov (ofMat n A) (.scalars (1 / (n : K)) (1 / (n : K))) true)

/-- The nodes with `p > 0` and a row that sums to zero (run_clusterings.py:352). -/
def zeroRows (n : Nat) (p : Nat → K) (A : Mat K) : List Nat :=
  (List.range n).filter fun i => decide (0 < p i) && decide (∑ j ∈ Finset.range n, A i j = 0)

/-- `ITPT[i,i] = integral_rtol*ITPT.data.max()` for these nodes (run_clusterings.py:355-356):
without stored entries the maximum is an exception, without `integral_rtol` the product is.
The maximum is taken over the stored entries, with the ones already set. -/
def fillDiag (n : Nat) (rtol : Option K) : List Nat → Mat K → Except LErr (Mat K)
  | [], A => .ok A
  | i :: l, A =>
    match ((List.range n).flatMap fun a => (List.range n).filterMap fun b =>
        if A a b = 0 then none else some (A a b)).max? with
    | none => .error .valueError
    | some x =>
      match rtol with
      | none => .error .typeError
      | some tol => fillDiag n rtol l fun a b => if a = i ∧ b = i then tol * x else A a b

/-- `load_autocov_int` with `init_p1=True` (run_clusterings.py:306-385); `forward` is the
direction. -/
def loadInit (n : Nat) (forward : Bool) (rtol : Option K) (norm : Option Nat) (f : Pickle K) :
    Except LErr (Autocov K) :=
  match (if forward then some f.itpt else f.back) with
  | none => .error .keyError
  | some m =>
    match setToZeroes n m rtol with
    | .error e => .error e
    | .ok A =>
      match (if forward then f.p1 else f.p2) with
      | none => .error .keyError
      | some p =>
        let A : Mat K := fun i j => A i j * (1 / f.time)
        let A := bothTriangles A
        match norm with
        | none => .ok (mkAutocov (ofMat n A) (.vectors p p) true)
        | some m =>
          match fillDiag n rtol (zeroRows n p A) A with
          | .error e => .error e
          | .ok A => .ok (mkAutocov (ofMat n (normIter n p m A)) (.vectors p p) true)

end Verif.Scripts.Load
