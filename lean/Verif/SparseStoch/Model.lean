import Verif.Csr.Model

/-!
# Model of the compressed stochastic matrix

Class `SparseStochMat` (`src/flowstab/sparse_stoch_mat.py:79-610`) and the routines it
calls in `src/flowstab/_cython_subst.py` and `src/flowstab/_cython_sparse_stoch.pyx`.
Numbers are elements of an ordered field instead of floats; integer widths are not
modelled.
-/

namespace Verif.SparseStoch

open Verif.Csr

variable {K : Type} [Field K] [LinearOrder K] [IsStrictOrderedRing K]

/-- Exceptions.  `outOfBounds` is a write outside an array in the compiled version, which
checks no bounds. -/
inductive Err
  | indexError | keyError | valueError | outOfBounds
  deriving DecidableEq, Repr

/-- Which version of the helper routines is loaded (sparse_stoch_mat.py:44-48). -/
inductive Backend
  | python | compiled
  deriving DecidableEq, Repr

/-- A `SparseStochMat` object (sparse_stoch_mat.py:127-136). -/
structure SSM (K : Type) where
  size : Nat
  nz : List Nat
  small : Csr K
  diag : K

/-- `np.unique(l)` and `sorted(set(l))`: the values in increasing order without
repetition (sparse_stoch_mat.py:128, `_cython_subst.py:109`). -/
def unique (l : List Nat) : List Nat :=
  (List.range (l.foldr max 0 + 1)).filter fun i => decide (i ∈ l)

/-- `SparseStochMat.__init__` (sparse_stoch_mat.py:87-136).  The checks are those of
scipy's `csr_matrix` constructor, which also cuts entries beyond `indptr[-1]`. -/
def mkSSM (size : Nat) (b : Build K) (nz : List Nat) (diag : K) : Except Err (SSM K) :=
  if b.indptr.length ≠ nz.length + 1 then .error .valueError
  else if b.indptr.getD 0 0 ≠ 0 then .error .valueError
  else if b.entries.length < b.indptr.getD nz.length 0 then .error .valueError
  else .ok ⟨size, unique nz,
    (Build.mk (b.entries.take (b.indptr.getD nz.length 0)) b.indptr).toCsr
      nz.length nz.length, diag⟩

/-- `from_small_csr_matrix` (sparse_stoch_mat.py:143-182). -/
def fromSmall (size : Nat) (T : Csr K) (nz : List Nat) (diag : K) : Except Err (SSM K) :=
  mkSSM size ⟨T.indices.zip T.data, T.indptr⟩ nz diag

/-- The value of the last position holding `v`: `{v:k for k,v in enumerate(nz)}[v]`
(`_cython_subst.py:19`). -/
def btos (nz : List Nat) (v : Nat) : Option Nat :=
  (List.range nz.length).reverse.find? fun k => nz[k]? == some v

/-- Write one entry of the small matrix (`_cython_subst.py:25-27`, pyx 624-626).  A
column that is not kept is a `KeyError` in Python; the C++ map of the compiled version
returns 0 for it. -/
def fromFullEntry (be : Backend) (alloc : Nat) (nz : List Nat)
    (acc : List (Nat × K)) (e : Nat × K) : Except Err (List (Nat × K)) :=
  if alloc ≤ acc.length then
    .error (match be with | .python => .indexError | .compiled => .outOfBounds)
  else match btos nz e.1, be with
    | some c, _ => .ok (acc ++ [(c, e.2)])
    | none, .python => .error .keyError
    | none, .compiled => .ok (acc ++ [(0, e.2)])

/-- One kept row (`_cython_subst.py:22-30`, pyx 620-629). -/
def fromFullRow (be : Backend) (T : Csr K) (alloc : Nat) (nz : List Nat)
    (b : Build K) (tbrow : Nat) : Except Err (Build K) :=
  if T.indptr.length ≤ tbrow + 1 then
    .error (match be with | .python => .indexError | .compiled => .outOfBounds)
  else
    match (T.row tbrow).foldlM (fromFullEntry be alloc nz) b.entries with
    | .error e => .error e
    | .ok es => .ok ⟨es, b.indptr ++ [es.length]⟩

/-- The allocated number of entries,
`Tf_data.shape[0] - Tf_indptr.shape[0] + 1 + nz_rowcols.shape[0]`
(`_cython_subst.py:12`, pyx 608). -/
def fromFullAlloc (T : Csr K) (nz : List Nat) : Int :=
  T.data.length - T.indptr.length + 1 + nz.length

/-- `from_full_csr_matrix` with a given list of kept indices (sparse_stoch_mat.py:196-203,
`_cython_subst.py:9-36`). -/
def fromFullWith (be : Backend) (T : Csr K) (nz : List Nat) (diag : K) : Except Err (SSM K) :=
  if fromFullAlloc T nz < 0 then .error .valueError
  else
    match nz.foldlM (fromFullRow be T (fromFullAlloc T nz).toNat nz) Build.empty with
    | .error e => .error e
    | .ok b => mkSSM (T.indptr.length - 1) b nz diag

/-- The default kept indices: rows and columns where `Tcsr - diag_val * eye` is nonzero
(sparse_stoch_mat.py:192-194); scipy's subtraction is taken at the level of values. -/
def detect (T : Csr K) (diag : K) : List Nat :=
  (List.range T.nrows).filter fun i =>
    (List.range T.nrows).any fun j =>
      decide (T.val i j - (if i = j then diag else 0) ≠ 0) ||
      decide (T.val j i - (if j = i then diag else 0) ≠ 0)

/-- `from_full_csr_matrix` with default indices (sparse_stoch_mat.py:184-203). -/
def fromFull (be : Backend) (T : Csr K) (diag : K) : Except Err (SSM K) :=
  fromFullWith be T (detect T diag) diag

/-- `create_diag` (sparse_stoch_mat.py:206-219). -/
def createDiag (size : Nat) (diag : K) : Except Err (SSM K) :=
  fromSmall size ⟨0, 0, [0], [], []⟩ [] diag

/-- One row of the full matrix (`_cython_subst.py:315-334`, pyx 402-429).  `seen` is
`row_id_small_t + 1` at the end of the previous turn, the number of kept rows met so
far. -/
def rebuildRow (T : Csr K) (nz : List Nat) (diag : K) (st : Nat × Build K) (rowId : Nat) :
    Nat × Build K :=
  if rowId ∈ nz then
    (st.1 + 1, st.2.push ((T.row st.1).map fun e => (nz.getD e.1 0, e.2)))
  else if diag ≠ 0 then (st.1, st.2.push [(rowId, diag)])
  else (st.1, st.2.push [])

/-- `rebuild_nnz_rowcol` (sparse_stoch_mat.py:590-610, `_cython_subst.py:288-338`). -/
def rebuild (T : Csr K) (nz : List Nat) (size : Nat) (diag : K) : Except Err (Csr K) :=
  if T.indices.any (fun c => decide (nz.length ≤ c)) then .error .indexError
  else .ok (((List.range size).foldl (rebuildRow T nz diag) (0, Build.empty)).2.toCsr size size)

/-- `to_full_mat` (sparse_stoch_mat.py:250-255). -/
def SSM.toFull (A : SSM K) : Except Err (Csr K) := rebuild A.small A.nz A.size A.diag

/-- `sub_diag` (sparse_stoch_mat.py:281-289). -/
def SSM.subDiag (A : SSM K) (d : K) : Except Err (SSM K) :=
  fromSmall A.size (A.small.addEye (-d)) A.nz (A.diag - d)

/-- `add_diag` (sparse_stoch_mat.py:290-298). -/
def SSM.addDiag (A : SSM K) (d : K) : Except Err (SSM K) :=
  fromSmall A.size (A.small.addEye d) A.nz (A.diag + d)

/-- `transpose` (sparse_stoch_mat.py:300-309). -/
def SSM.transpose (A : SSM K) : Except Err (SSM K) :=
  fromSmall A.size A.small.transpose A.nz A.diag

/-- `__mul__`, `__rmul__` with a number (sparse_stoch_mat.py:516-534). -/
def SSM.smul (A : SSM K) (o : K) : Except Err (SSM K) :=
  fromSmall A.size (A.small.scale o) A.nz (A.diag * o)

/-- The sparse accumulator `SPA` (`_cython_subst.py:47-80`, sparse_accumulator.cpp). -/
structure Spa (K : Type) where
  w : Nat → K
  b : Nat → Int
  ls : List Nat
  cur : Int

/-- `SPA(size)` (`_cython_subst.py:56-66`). -/
def Spa.init : Spa K := ⟨fun _ => 0, fun _ => -1, [], 0⟩

/-- `SPA.scatter` (`_cython_subst.py:69-76`). -/
def Spa.scatter (s : Spa K) (value : K) (pos : Nat) : Spa K :=
  if s.b pos < s.cur then
    { s with
      w := fun p => if p = pos then value else s.w p
      b := fun p => if p = pos then s.cur else s.b p
      ls := s.ls ++ [pos] }
  else { s with w := fun p => if p = pos then s.w p + value else s.w p }

/-- `SPA.reset` (`_cython_subst.py:78-81`). -/
def Spa.reset (s : Spa K) (row : Nat) : Spa K := { s with cur := row, ls := [] }

/-- `while nz[k] != cnz[ic]: ic += 1`: the number of steps to the first match, if any
(`_cython_subst.py:129-131`). -/
def advance (v : Nat) (cnz : List Nat) (ic : Nat) : Except Err Nat :=
  match (cnz.drop ic).findIdx? (· == v) with
  | some k => .ok (ic + k)
  | none => .error .indexError

/-- Column map from a matrix to the result; `ic` is carried from one column to the next
(`_cython_subst.py:124-139`, sparse_stoch_mat.py:446-460). -/
def colMap (cnz : List Nat) : Nat → List Nat → Except Err (List Nat)
  | _, [] => .ok []
  | ic, v :: rest =>
    match advance v cnz ic with
    | .error e => .error e
    | .ok k =>
      match colMap cnz k rest with
      | .error e => .error e
      | .ok l => .ok (k :: l)

/-- Loop variables of `stoch_mat_add` (`_cython_subst.py:113-141`). -/
structure AddState (K : Type) where
  ia : Nat
  ib : Nat
  ic : Nat
  spa : Spa K
  out : Build K

/-- Scatter one row (`_cython_subst.py:146-150`). -/
def scatterRow (g : K → K) (cols : List Nat) (s : Spa K) (r : List (Nat × K)) : Spa K :=
  r.foldl (fun s e => s.scatter (g e.2) (cols.getD e.1 0)) s

/-- One row of the result of `stoch_mat_add` (`g = id`) or `stoch_mat_sub`
(`g x = -1 * x`) (`_cython_subst.py:142-182, 245-285`, pyx 176-208, 288-320). -/
def addRow (g : K → K) (A B : SSM K) (acol bcol : List Nat) (alloc : Nat)
    (st : AddState K) (i : Nat) : Except Err (AddState K) :=
  let s0 := st.spa.reset i
  let s1 := if i ∈ A.nz then scatterRow id acol s0 (A.small.row st.ia) else s0
  let ia := if i ∈ A.nz then st.ia + 1 else st.ia
  let s2 := if i ∈ B.nz then scatterRow g bcol s1 (B.small.row st.ib) else s1
  let ib := if i ∈ B.nz then st.ib + 1 else st.ib
  let s3 := if i ∈ A.nz ∧ i ∉ B.nz then s2.scatter (g B.diag) st.ic else s2
  let s4 := if i ∈ B.nz ∧ i ∉ A.nz then s3.scatter A.diag st.ic else s3
  if alloc < st.out.entries.length + s4.ls.length then .error .outOfBounds
  else .ok ⟨ia, ib, st.ic + 1, s4, st.out.push (s4.ls.map fun p => (p, s4.w p))⟩

/-- `stoch_mat_add` and `stoch_mat_sub` followed by the constructor
(sparse_stoch_mat.py:329-369, 371-403, `_cython_subst.py:82-183, 185-286`).  The call to
`sort_indices` before it only reorders entries inside rows and is left out; the theorems
hold for every order. -/
def addWith (g : K → K) (A B : SSM K) : Except Err (SSM K) :=
  let cnz := unique (A.nz ++ B.nz)
  let alloc := A.small.indptr.length + B.small.indptr.length +
    A.small.data.length + B.small.data.length
  match colMap cnz 0 A.nz, colMap cnz 0 B.nz with
  | .error e, _ => .error e
  | _, .error e => .error e
  | .ok acol, .ok bcol =>
    match cnz.foldlM (addRow g A B acol bcol alloc) ⟨0, 0, 0, Spa.init, Build.empty⟩ with
    | .error e => .error e
    | .ok st => mkSSM A.size st.out cnz (A.diag + g B.diag)

/-- `A + B` (sparse_stoch_mat.py:329-361). -/
def SSM.add (A B : SSM K) : Except Err (SSM K) := addWith id A B

/-- `A - B` (sparse_stoch_mat.py:371-401). -/
def SSM.sub (A B : SSM K) : Except Err (SSM K) := addWith (fun x => -1 * x) A B

/-- `len(set(A.nz_rowcols).intersection(set(B.nz_rowcols)))`
(sparse_stoch_mat.py:314-321, 432). -/
def interLen (A B : SSM K) : Nat := (A.nz.filter fun i => decide (i ∈ B.nz)).length

/-- `A` itself when the factor is 1.0, `factor * A` otherwise (sparse_stoch_mat.py:434-442). -/
def SSM.scaledBy (A : SSM K) (b : K) : Except Err (SSM K) := if b = 1 then .ok A else A.smul b

/-- `A @ B` (sparse_stoch_mat.py:410-497). -/
def SSM.matmul (A B : SSM K) : Except Err (SSM K) := do
  let aB ← B.scaledBy A.diag
  let bA ← A.scaledBy B.diag
  if interLen A B = 0 then
    (← bA.add aB).subDiag (A.diag * B.diag)
  else
    let cnz := unique (A.nz ++ B.nz)
    let acol ← colMap cnz 0 A.nz
    let bcol ← colMap cnz 0 B.nz
    let am ← fromSmall cnz.length (A.small.addEye (-A.diag)) acol 0
    let bm ← fromSmall cnz.length (B.small.addEye (-B.diag)) bcol 0
    let af ← am.toFull
    let bf ← bm.toFull
    let cm ← fromSmall A.size (af.matmul bf) cnz 0
    cm.add (← (← bA.add aB).subDiag (A.diag * B.diag))

/-- Values of one row after `inplace_csr_row_normalize` (`_cython_subst.py:39-45`, pyx
456-474).  With target 0 the Python version divides by an infinite ratio, which leaves
zeros; the compiled version subtracts the mean. -/
def normVals (be : Backend) (target : K) (vals : List K) : List K :=
  if vals.sum = 0 then vals
  else if target = 0 then
    match be with
    | .python => vals.map fun _ => 0
    | .compiled => vals.map fun x => x - vals.sum / vals.length
  else vals.map fun x => x / (vals.sum / target)

/-- The whole `data` array after normalisation with the given target per row: each row's
slice is replaced (`_cython_subst.py:42-45, 557-571`). -/
def normData (be : Backend) (target : Nat → K) (M : Csr K) : List K :=
  (List.range M.nrows).flatMap fun i => normVals be (target i) ((M.row i).map Prod.snd)

/-- `inplace_csr_row_normalize` with one target (sparse_stoch_mat.py:574-576). -/
def rowNormalize (be : Backend) (target : K) (M : Csr K) : Csr K :=
  { M with data := normData be (fun _ => target) M }

/-- `inplace_csr_row_normalize_array` (sparse_stoch_mat.py:577-580,
`_cython_subst.py:543-571`, pyx 481-518); both versions subtract the mean for target 0. -/
def rowNormalizeArray (target : Nat → K) (M : Csr K) : Csr K :=
  { M with data := normData .compiled target M }

/-- `SparseStochMat.inplace_row_normalize` (sparse_stoch_mat.py:222-232). -/
def SSM.rowNormalize (be : Backend) (target : K) (A : SSM K) : SSM K :=
  { A with small := SparseStoch.rowNormalize be target A.small, diag := target }

/-- Threshold of `set_to_zeroes`: `tol`, or `tol` times the largest of `|min|` and
`|max|` of the stored data (sparse_stoch_mat.py:240-241, temporal_network.py:2655-2658). -/
def zeroThreshold (tol : K) (relative : Bool) (data : List K) : K :=
  match data with
  | [] => tol
  | x :: rest =>
    if relative then tol * max |rest.foldl min x| |rest.foldl max x| else tol

/-- Whether a stored value is set to zero (sparse_stoch_mat.py:242-245). -/
def zeroed (thr : K) (useAbs : Bool) (x : K) : Bool :=
  if useAbs then decide (|x| ≤ thr) else decide (x ≤ thr)

/-- `set_to_zeroes` on a `csr_matrix` (temporal_network.py:2652-2665) or on the block of a
compressed matrix (sparse_stoch_mat.py:235-248): values set to zero, then
`eliminate_zeros`, which also drops stored zeros. -/
def csrSetToZeroes (tol : K) (relative useAbs : Bool) (M : Csr K) : Csr K :=
  let thr := zeroThreshold tol relative M.data
  if M.data.length = 0 then M
  else ofRows M.ncols ((List.range M.nrows).map fun i =>
    (M.row i).filter fun e => !(zeroed thr useAbs e.2) && decide (e.2 ≠ 0))

/-- `SparseStochMat.set_to_zeroes` (sparse_stoch_mat.py:235-248). -/
def SSM.setToZeroes (tol : K) (relative useAbs : Bool) (A : SSM K) : SSM K :=
  { A with small := csrSetToZeroes tol relative useAbs A.small }

/-- `temporal_network.set_to_zeroes` on a compressed matrix (temporal_network.py:2650-2652):
the option `use_absolute_value` is not passed on; `tol = None` does nothing. -/
def setToZeroesSSM (tol : Option K) (relative _useAbs : Bool) (A : SSM K) : SSM K :=
  match tol with
  | none => A
  | some t => A.setToZeroes t relative false

end Verif.SparseStoch
