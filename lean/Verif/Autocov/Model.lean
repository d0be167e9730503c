import Verif.Csr.Model
import Mathlib.Algebra.BigOperators.Group.Finset.Basic

/-!
# Model of the sparse autocovariance matrix

Class `SparseAutocovMat` (`src/flowstab/sparse_stoch_mat.py:675-1098`), the routines it
calls in `_cython_subst.py:340-541` and `_cython_sparse_stoch.pyx:634-901`, and the two
in-place diagonal products (`sparse_stoch_mat.py:613-672`).  Numbers are elements of an
ordered field.  The shape assertions of the constructors appear as hypotheses of the
theorems (square `PT`); vectors are functions on indices.
-/

set_option linter.dupNamespace false

namespace Verif.Autocov

open Verif.Csr

variable {K : Type} [Field K] [LinearOrder K] [IsStrictOrderedRing K]

/-- Exceptions.  `outOfBounds` stands for the `IndexError` of the Python version and for
the unchecked read outside the array of the compiled version. -/
inductive Err
  | outOfBounds
  deriving DecidableEq, Repr

/-- The same stored pattern with new values. -/
def mapVals (M : Csr K) (f : Nat → Nat → K → K) : Csr K :=
  ofRows M.ncols ((List.range M.nrows).map fun i => (M.row i).map fun e => (e.1, f i e.1 e.2))

/-- `inplace_diag_matmul_csr` (sparse_stoch_mat.py:645-672): row `i` is scaled by `d i`. -/
def diagMatmul (M : Csr K) (d : Nat → K) : Csr K := mapVals M fun i _ x => x * d i

/-- `inplace_csr_matmul_diag` (sparse_stoch_mat.py:613-642): column `j` is scaled by
`d j`. -/
def matmulDiag (M : Csr K) (d : Nat → K) : Csr K := mapVals M fun _ j x => x * d j

/-- Entries of a row in the order of their columns. -/
def sortRow (n : Nat) (r : List (Nat × K)) : List (Nat × K) :=
  (List.range n).flatMap fun j => r.filter fun e => e.1 == j

/-- `PT.sort_indices()` (sparse_stoch_mat.py:713). -/
def sortIndices (M : Csr K) : Csr K :=
  ofRows M.ncols ((List.range M.nrows).map fun i => sortRow M.ncols (M.row i))

/-- `p1`, `p2`: two scalars or two vectors (sparse_stoch_mat.py:687-703). -/
inductive Weights (K : Type)
  | scalars (p1 p2 : K)
  | vectors (p1 p2 : Nat → K)

/-- The subtracted product `p1[i] * p2[j]`, or `p1p2` (sparse_stoch_mat.py:848-852,
877-880). -/
def Weights.p0 : Weights K → Nat → Nat → K
  | .scalars a b, _, _ => a * b
  | .vectors p1 p2, i, j => p1 i * p2 j

/-- A `SparseAutocovMat`; `PTcsc` is stored column by column, that is, its row `j` is the
column `j` of `PT` (sparse_stoch_mat.py:705-720). -/
structure Autocov (K : Type) where
  PT : Csr K
  PTcsc : Csr K
  w : Weights K
  symmetric : Bool

/-- `SparseAutocovMat(PT, p1, p2, PT_symmetric)` (sparse_stoch_mat.py:687-720). -/
def mkAutocov (PT : Csr K) (w : Weights K) (sym : Bool) : Autocov K :=
  let s := sortIndices PT
  ⟨s, if sym then s else s.transpose, w, sym⟩

/-- `toarray()[i, j]` (sparse_stoch_mat.py:845-852). -/
def Autocov.toarray (A : Autocov K) (i j : Nat) : K := A.PT.val i j - A.w.p0 i j

/-- `get_submat_sum` of the helper modules (`_cython_subst.py:340-360`, pyx 637-662). -/
def submat (M : Csr K) (rows cols : List Nat) : K :=
  rows.foldl (fun s row =>
    (M.row row).foldl (fun s e => if e.1 ∈ cols then s + e.2 else s) s) 0

/-- `SparseAutocovMat.get_submat_sum` (sparse_stoch_mat.py:854-873). -/
def Autocov.submatSum (A : Autocov K) (rows cols : List Nat) : K :=
  submat A.PT rows cols -
    match A.w with
    | .scalars a b => rows.length * cols.length * (a * b)
    | .vectors p1 p2 => (rows.map fun i => (cols.map fun j => p1 i * p2 j).sum).sum

/-- `get_element` (sparse_stoch_mat.py:875-887). -/
def Autocov.element (A : Autocov K) (i j : Nat) : K :=
  match (A.PT.row i).find? fun e => e.1 == j with
  | none => -1 * A.w.p0 i j
  | some e => e.2 - A.w.p0 i j

/-- `get_row_idx_sum` (sparse_stoch_mat.py:889-916). -/
def Autocov.rowIdxSum (A : Autocov K) (row : Nat) (idx : List Nat) : K :=
  submat A.PT [row] idx -
    match A.w with
    | .scalars a b => idx.length * (a * b)
    | .vectors p1 p2 => (idx.map fun j => p1 row * p2 j).sum

/-- `get_col_idx_sum` (sparse_stoch_mat.py:918-946). -/
def Autocov.colIdxSum (A : Autocov K) (col : Nat) (idx : List Nat) : K :=
  submat A.PTcsc [col] idx -
    match A.w with
    | .scalars a b => idx.length * (a * b)
    | .vectors p1 p2 => (idx.map fun i => p1 i * p2 col).sum

/-- The search for `PT[k,k]` (`_cython_subst.py:421-429`, pyx 770-780): the list holds the
stored entries from position `indptr[k]` on, `m` is the number of further steps the
condition `j + 1 < PTindptr[k+1]` allows. -/
def scanDiag (k : Nat) : Nat → List (Nat × K) → Except Err K
  | _, [] => .error .outOfBounds
  | m, e :: rest =>
    if e.1 < k ∧ 0 < m then scanDiag k (m - 1) rest
    else if e.1 = k then .ok e.2
    else .ok 0

/-- `PT[k,k]` as the gain routines read it. -/
def readDiag (M : Csr K) (k : Nat) : Except Err K :=
  scanDiag k (M.indptr.getD (k + 1) 0 - M.indptr.getD k 0 - 1)
    ((M.indices.zip M.data).drop (M.indptr.getD k 0))

/-- `compute_delta_PT_moveto` (`_cython_subst.py:390-430`, pyx 740-782). -/
def deltaPTto (M Mc : Csr K) (k : Nat) (idx : List Nat) : Except Err K :=
  let s := (M.row k).foldl (fun s e => if e.1 ∈ idx then s + e.2 else s) 0
  let s := (Mc.row k).foldl (fun s e => if e.1 ∈ idx then s + e.2 else s) s
  match readDiag M k with
  | .error e => .error e
  | .ok d => .ok (s + d)

/-- `compute_delta_PT_moveout` (`_cython_subst.py:470-511`, pyx 828-871). -/
def deltaPTout (M Mc : Csr K) (k : Nat) (idx : List Nat) : Except Err K :=
  let s := (M.row k).foldl (fun s e => if e.1 ∈ idx then s - e.2 else s) 0
  let s := (Mc.row k).foldl (fun s e => if e.1 ∈ idx then s - e.2 else s) s
  match readDiag M k with
  | .error e => .error e
  | .ok d => .ok (s + d)

/-- `_compute_delta_S_moveto` (sparse_stoch_mat.py:1033-1064, `_cython_subst.py:432-468`). -/
def Autocov.deltaTo (A : Autocov K) (k : Nat) (idx : List Nat) : Except Err K :=
  match deltaPTto A.PT A.PTcsc k idx with
  | .error e => .error e
  | .ok s =>
    match A.w with
    | .scalars a b => .ok (s - (2 * idx.length + 1) * (a * b))
    | .vectors p1 p2 =>
      .ok (idx.foldl (fun s i => s - p1 k * p2 i - p1 i * p2 k) s - p1 k * p2 k)

/-- `_compute_delta_S_moveout` (sparse_stoch_mat.py:1067-1098, `_cython_subst.py:513-541`,
pyx 875-913). -/
def Autocov.deltaOut (A : Autocov K) (k : Nat) (idx : List Nat) : Except Err K :=
  match deltaPTout A.PT A.PTcsc k idx with
  | .error e => .error e
  | .ok s =>
    match A.w with
    | .scalars a b => .ok (s + (2 * idx.length - 1) * (a * b))
    | .vectors p1 p2 =>
      .ok (idx.foldl (fun s i => s + p1 k * p2 i + p1 i * p2 k) s - p1 k * p2 k)

/-- `aggregate_csr_mat` followed by `tocsr` (pyx 666-696, sparse_stoch_mat.py:983): one
entry per pair of groups whose sum is positive. -/
def aggregate1 (M : Csr K) (groups : List (List Nat)) : Csr K :=
  ofRows groups.length ((List.range groups.length).map fun a =>
    (List.range groups.length).filterMap fun b =>
      if 0 < submat M (groups.getD a []) (groups.getD b []) then
        some (b, submat M (groups.getD a []) (groups.getD b []))
      else none)

/-- `AtoB[i]` (pyx 722-726): the last group that lists `i`; a C++ map returns 0 for a
missing key. -/
def groupOf (groups : List (List Nat)) (i : Nat) : Nat :=
  ((List.range groups.length).reverse.find? fun a => decide (i ∈ groups.getD a [])).getD 0

/-- `aggregate_csr_mat_2` followed by `tocsr` (pyx 701-735, sparse_stoch_mat.py:983): every
stored entry is moved to its pair of groups, `tocsr` adds up. -/
def aggregate2 (M : Csr K) (groups : List (List Nat)) : Csr K :=
  ofRows groups.length ((List.range groups.length).map fun a =>
    canonRow groups.length false
      (((List.range M.nrows).filter fun i => groupOf groups i == a).flatMap fun i =>
        (M.row i).map fun e => (groupOf groups e.1, e.2)))

/-- The choice between the two versions (sparse_stoch_mat.py:968-981). -/
def aggregatePT (M : Csr K) (groups : List (List Nat)) : Csr K :=
  if groups.length ^ 2 < M.data.length then aggregate1 M groups else aggregate2 M groups

/-- `newp = [oldp[idx].sum() for idx in idx_list]`, divided by its sum
(sparse_stoch_mat.py:993-1001). -/
def aggregateP (p : Nat → K) (groups : List (List Nat)) (a : Nat) : K :=
  ((groups.getD a []).map p).sum / (groups.map fun g => (g.map p).sum).sum

/-- `aggregate` (sparse_stoch_mat.py:950-1011).  Scalars become the uniform vector. -/
def Autocov.aggregate (A : Autocov K) (groups : List (List Nat)) : Autocov K :=
  let q : (Nat → K) × (Nat → K) := match A.w with
    | .scalars _ _ => (fun _ => 1 / (A.PT.nrows : K), fun _ => 1 / (A.PT.nrows : K))
    | .vectors p1 p2 => (p1, p2)
  mkAutocov (aggregatePT A.PT groups)
    (.vectors (aggregateP q.1 groups) (aggregateP q.2 groups)) A.symmetric

/-- `np.allclose(a, b)` for two numbers. -/
def allclose (a b : K) : Bool := decide (|a - b| ≤ 1 / 10 ^ 8 + 1 / 10 ^ 5 * |b|)

/-- `is_all_zeros` (sparse_stoch_mat.py:1014-1031). -/
def Autocov.isAllZeros (A : Autocov K) : Bool :=
  (List.range A.PT.nrows).all fun row =>
    (A.PT.row row).all fun e => allclose e.2 (A.w.p0 row e.1)

/-- The default `p1` (sparse_stoch_mat.py:764, 808). -/
def uniform (n : Nat) : Nat → K := fun _ => 1 / (n : K)

/-- `p1 @ T` (sparse_stoch_mat.py:772, 817). -/
def vecMat (p : Nat → K) (T : Csr K) (j : Nat) : K := ∑ i ∈ Finset.range T.nrows, p i * T.val i j

/-- `from_T` (sparse_stoch_mat.py:734-776). -/
def fromT (T : Csr K) (p1 p2 : Option (Nat → K)) : Autocov K :=
  let q1 := p1.getD (uniform T.nrows)
  let q2 := p2.getD (vecMat q1 T)
  mkAutocov (diagMatmul T q1) (.vectors q1 q2) false

/-- The dense `_compute_S` (network_clustering.py:431-458, `compute_S` in
_cython_fast_funcs.pyx:71-92), with the option `S_threshold`. -/
def computeS (p1 p2 : Nat → K) (T : Nat → Nat → K) (threshold : Option K) (i j : Nat) : K :=
  let s := p1 i * T i j - p1 i * p2 j
  match threshold with
  | none => s
  | some t => if |s| < t then 0 else s

/-- `1/p2` with zeros replaced by ones first (sparse_stoch_mat.py:819-821). -/
def invOrOne (p2 : Nat → K) (j : Nat) : K := 1 / (if p2 j = 0 then 1 else p2 j)

/-- `from_T_forward` (sparse_stoch_mat.py:778-835). -/
def fromTForward (T : Csr K) (p1 p2 : Option (Nat → K)) : Autocov K :=
  let q1 := p1.getD (uniform T.nrows)
  let q2 := p2.getD (vecMat q1 T)
  let PT := matmulDiag (diagMatmul ((matmulDiag T (invOrOne q2)).matmul T.transpose) q1) q1
  match p1 with
  | none => mkAutocov PT (.scalars (q1 0) (q1 0)) true
  | some _ => mkAutocov PT (.vectors q1 q1) true

end Verif.Autocov
