import Verif.Memory.Model
import Verif.Trans.SubModel

/-!
# Model of the exponentials by components on the arrays of the matrices

`src/flowstab/parallel_expm.py` and `compute_subspace_expm` (temporal_network.py:2275-2361), with the
storage format of the argument and the arrays that are filled.  As in `Verif.Trans.SubModel`, SciPy's
`expm` and `expm_multiply` are the parameters `E` and `EMul`, and the labels of the components are
those returned by `connected_components` or given by the caller.
-/

set_option linter.dupNamespace false

namespace Verif.ExpmArrays

open Verif.Csr Verif.Memory Verif.Trans

variable {K : Type} [Field K] [LinearOrder K] [IsStrictOrderedRing K]

/-- The two compressed formats of SciPy. -/
inductive Fmt
  | csr | csc
  deriving DecidableEq, Repr

/-- A compressed matrix: `arr` holds `indptr`, `indices` and `data`, by rows for CSR and by columns for
CSC. -/
structure Sparse (K : Type) where
  fmt : Fmt
  arr : Csr K

/-- `A[i, j]`. -/
def Sparse.val (A : Sparse K) (i j : Nat) : K :=
  match A.fmt with
  | .csr => A.arr.val i j
  | .csc => A.arr.val j i

/-- `csc_matrix(A)` (parallel_expm.py:91-92). -/
def Sparse.toCsc (A : Sparse K) : Sparse K :=
  match A.fmt with
  | .csr => ⟨.csc, A.arr.transpose⟩
  | .csc => A

/-- `A.eliminate_zeros()` (parallel_expm.py:181, temporal_network.py:2302): the arrays are compacted. -/
def Sparse.eliminateZeros (A : Sparse K) : Sparse K :=
  ⟨A.fmt, ofRows A.arr.ncols (A.arr.rows.map fun r => r.filter fun e => decide (e.2 ≠ 0))⟩

/-- `A.sort_indices()` (parallel_expm.py:182, temporal_network.py:2303). -/
def Sparse.sortIndices (A : Sparse K) : Sparse K :=
  ⟨A.fmt, ofRows A.arr.ncols (A.arr.rows.map fun r => r.mergeSort fun a b => decide (a.1 ≤ b.1))⟩

/-- `_init_worker` (parallel_expm.py:37-43): the three shared arrays are read as those of a CSC
matrix, whatever the format they come from. -/
def initWorker (data : List K) (indices indptr : List Nat) (N : Nat) : Sparse K :=
  ⟨.csc, ⟨N, N, indptr, indices, data⟩⟩

/-- `_expm_worker` (parallel_expm.py:145-147): `expm(A[idx,:][:,idx]).toarray()`. -/
def expmWorker (E : Nat → Mat K → Mat K) (W : Sparse K) (idx : List Nat) : Mat K :=
  E idx.length (sub idx W.val)

/-- `csc_matrix(v)` for a vector (parallel_expm.py:60): one row with the values that are not zero. -/
def rowOfVec (N : Nat) (v : Nat → K) : List (Nat × K) :=
  (List.range N).filterMap fun i => if v i = 0 then none else some (i, v i)

/-- `_worker((i, thresh_ratio))` (parallel_expm.py:45-60). -/
def worker (N : Nat) (EMul : Nat → Mat K → (Nat → K) → Nat → K) (W : Sparse K) (thresh : Option K) (i : Nat) :
    List (Nat × K) :=
  rowOfVec N (trimColumn N thresh (EMul N W.val fun k => if k = i then 1 else 0))

/-- `vstack(res).T.tocsr()` (parallel_expm.py:113). -/
def stackT (N : Nat) (cols : List (List (Nat × K))) : Csr K := (ofRows N cols).transpose

/-- `_stack_sparse_cols` (parallel_expm.py:124-143); the columns are given by their stored entries,
`N` is the length of the first one. -/
def stackColsRun (N : Nat) (cols : List (List (Nat × K))) : Run (Arrays K) := do
  let size := (cols.map List.length).sum
  let o ← loop 0 cols.length
    (⟨⟨List.replicate (N + 1) 0, List.replicate size 0, List.replicate size 0⟩, 0⟩ : Out K) fun o col => do
      let c ← rd cols col
      let data ← writeSlice o.arr.data o.pos c.length (c.map Prod.snd)
      let indices ← writeSlice o.arr.indices o.pos c.length (c.map fun e => (e.1 : Int))
      let indptr ← wr o.arr.indptr (col + 1) (o.pos + c.length)
      pure ⟨⟨indptr, indices, data⟩, o.pos + c.length⟩
  pure o.arr

/-- `compute_parallel_expm` (parallel_expm.py:62-122).  `Pool.map` keeps the order of the tasks. -/
def parallelExpm (EMul : Nat → Mat K → (Nat → K) → Nat → K) (thresh : Option K) (normalize : Bool)
    (A : Sparse K) : Csr K :=
  let B := A.toCsc
  let N := B.arr.nrows
  let W := initWorker B.arr.data B.arr.indices B.arr.indptr N
  let T := stackT N ((List.range N).map (worker N EMul W thresh))
  if normalize then SparseStoch.rowNormalize .compiled 1 T else T

/-- `A[idx,:][:,idx]` in the format of `A` (parallel_expm.py:206). -/
def Sparse.block (A : Sparse K) (idx : List Nat) : Sparse K :=
  ⟨A.fmt, ofRows idx.length (idx.map fun a => (A.arr.row a).filterMap fun e =>
    if e.1 ∈ idx then some (idx.idxOf e.1, e.2) else none)⟩

/-- `np.bincount(comp_labels)` (parallel_expm.py:187, temporal_network.py:2307). -/
def bincount (lab : List Nat) : List Nat :=
  if lab = [] then [] else (List.range (lab.foldl max 0 + 1)).map fun c => lab.count c

/-- `[(comp_labels == cmp).nonzero()[0] for cmp in range(n_comp)]` (parallel_expm.py:188-189,
temporal_network.py:2308-2309). -/
def cmpIndices (lab : List Nat) (nComp : Nat) : List (List Nat) :=
  (List.range nComp).map fun c => (List.range lab.length).filter fun i => decide (lab.getD i 0 = c)

/-- One row of the reconstruction (parallel_expm.py:247-259, temporal_network.py:2336-2347). -/
def rebuildRow (lab : List Nat) (sizes : List Nat) (cmps : List (List Nat)) (S : Nat → Mat K) (o : Out K)
    (row : Int) : Run (Out K) := do
  let cmp ← rd lab row
  let ci ← rd cmps cmp
  let s ← rd sizes cmp
  let data ← writeSlice o.arr.data o.pos s ((List.range ci.length).map fun b => S cmp (ci.idxOf row.toNat) b)
  let indices ← writeSlice o.arr.indices o.pos s (ci.map fun i : Nat => (i : Int))
  let indptr ← wr o.arr.indptr row o.pos
  pure ⟨⟨indptr, indices, data⟩, o.pos + s⟩

/-- The reconstruction of the matrix from the exponentials `S` of the components
(parallel_expm.py:235-260, temporal_network.py:2314-2349). -/
def rebuildRun (lab : List Nat) (nComp : Nat) (S : Nat → Mat K) : Run (Arrays K) := do
  let sizes := bincount lab
  let total := (sizes.map (· ^ 2)).sum
  let o ← loop 0 lab.length
    (⟨⟨List.replicate (lab.length + 1) 0, List.replicate total 0, List.replicate total 0⟩, 0⟩ : Out K)
    (rebuildRow lab sizes (cmpIndices lab nComp) S)
  let indptr ← wr o.arr.indptr lab.length o.pos
  pure { o.arr with indptr := indptr }

/-- `csr_matrix((data, indices, indptr), shape=(n, n))` (parallel_expm.py:262-263). -/
def toCsr (n : Nat) (a : Arrays K) : Csr K := ⟨n, n, a.indptr.map Int.toNat, a.indices.map Int.toNat, a.data⟩

/-- `data.max()`. -/
def dataMax : List K → K
  | [] => 0
  | x :: xs => xs.foldl max x

/-- Trimming and normalisation of the result (parallel_expm.py:265-270, temporal_network.py:2353-2358).
The maximum of an empty array, for a matrix without rows, is an error in numpy. -/
def finish (thresh : Option K) (normalize : Bool) (M : Csr K) : Csr K :=
  let T : Csr K :=
    match thresh with
    | none => M
    | some r =>
      (Sparse.eliminateZeros ⟨.csr, { M with data := M.data.map fun x => if x < dataMax M.data / r then 0 else x }⟩).arr
  if normalize then SparseStoch.rowNormalize .compiled 1 T else T

/-- `compute_subspace_expm` (temporal_network.py:2275-2361) with the labels of the components. -/
def subspaceExpm (E : Nat → Mat K → Mat K) (lab : List Nat) (nComp : Nat) (thresh : Option K) (normalize : Bool)
    (A : Sparse K) : Run (Csr K) := do
  let B := A.eliminateZeros.sortIndices
  let a ← rebuildRun lab nComp fun c =>
    let idx := (cmpIndices lab nComp).getD c []
    E idx.length (sub idx B.val)
  pure (finish thresh normalize (toCsr lab.length a))

/-- `compute_subspace_expm_parallel` (parallel_expm.py:150-272) with the labels of the components: those
of at least 1000 nodes by columns, the others by workers that read the shared arrays. -/
def subspaceExpmParallel (E : Nat → Mat K → Mat K) (EMul : Nat → Mat K → (Nat → K) → Nat → K) (lab : List Nat)
    (nComp : Nat) (thresh : Option K) (normalize : Bool) (A : Sparse K) : Run (Csr K) := do
  let B := A.eliminateZeros.sortIndices
  let W := initWorker B.arr.data B.arr.indices B.arr.indptr lab.length
  let a ← rebuildRun lab nComp fun c =>
    let idx := (cmpIndices lab nComp).getD c []
    if 1000 ≤ idx.length then (parallelExpm EMul none false (B.block idx)).val
    else expmWorker E W idx
  pure (finish thresh normalize (toCsr lab.length a))

end Verif.ExpmArrays
