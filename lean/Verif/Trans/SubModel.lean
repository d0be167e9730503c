import Verif.Trans.Model

/-!
# Model of the matrix exponential computed on parts of the network

The exponential of a square array of a given size, `E`, and its product with a vector,
`EMul`, are parameters: they are SciPy's `expm` and `expm_multiply`.
-/

set_option linter.dupNamespace false

namespace Verif.Trans

variable {K : Type} [Field K] [LinearOrder K] [IsStrictOrderedRing K]

/-- `L[idx][:, idx]`. -/
def sub (idx : List Nat) (A : Mat K) : Mat K := fun a b => A (idx.getD a 0) (idx.getD b 0)

/-- `nonzero_indices` of `remove_nnz_rowcol` (temporal_network.py:2404-2422): the rows and
columns with a stored entry; `stored` says which entries are stored, zero or not. -/
def keptIndices (n : Nat) (stored : Nat → Nat → Bool) : List Nat :=
  (List.range n).filter fun i => (List.range n).any fun j => stored i j || stored j i

/-- `(comp_labels == cmp).nonzero()[0]` (temporal_network.py:2308-2309,
parallel_expm.py:188-189). -/
def compIndices (n : Nat) (lab : Nat → Nat) (c : Nat) : List Nat :=
  (List.range n).filter fun i => decide (lab i = c)

/-- Reconstruction of the matrix from the exponentials of the components
(temporal_network.py:2334-2353, parallel_expm.py:244-260). -/
def rebuild (n : Nat) (lab : Nat → Nat) (S : Nat → Mat K) : Mat K := fun i j =>
  if lab i = lab j then
    S (lab i) ((compIndices n lab (lab i)).idxOf i) ((compIndices n lab (lab i)).idxOf j)
  else 0

/-- Largest value, `data.max()`. -/
def maxEntry (n : Nat) (A : Mat K) : K :=
  (List.range n).foldl (fun m i => (List.range n).foldl (fun m j => max m (A i j)) m) (A 0 0)

/-- `expmA.data[expmA.data < expmA.data.max()/thresh_ratio] = 0.0`
(temporal_network.py:2355-2357).  The maximum is taken over the whole matrix; entries that
are not stored are zero, and the largest entry of an exponential is positive. -/
def trim (n : Nat) (thresh : Option K) (A : Mat K) : Mat K :=
  match thresh with
  | none => A
  | some r => fun i j => if A i j < maxEntry n A / r then 0 else A i j

/-- `if normalize_rows: inplace_csr_row_normalize(expmA)`. -/
def normalizeIf (n : Nat) (normalize : Bool) (A : Mat K) : Mat K := if normalize then rowNormalize n A else A

/-- `compute_subspace_expm` (temporal_network.py:2275-2361). -/
def subspaceExpm (n : Nat) (E : Nat → Mat K → Mat K) (lab : Nat → Nat) (thresh : Option K) (normalize : Bool)
    (A : Mat K) : Mat K :=
  normalizeIf n normalize (trim n thresh (rebuild n lab fun c =>
    E (compIndices n lab c).length (sub (compIndices n lab c) A)))

/-- Threshold of one column (parallel_expm.py:56-58). -/
def trimColumn (n : Nat) (thresh : Option K) (v : Nat → K) : Nat → K :=
  match thresh with
  | none => v
  | some r => fun i => if v i < ((List.range n).foldl (fun m j => max m (v j)) (v 0)) / r then 0 else v i

/-- `compute_parallel_expm` (parallel_expm.py:45-122): one column per task; `Pool.map` keeps
the order of the tasks, whatever the number of processes and their timing. -/
def parallelExpm (n : Nat) (EMul : Nat → Mat K → (Nat → K) → Nat → K) (thresh : Option K) (normalize : Bool)
    (A : Mat K) : Mat K :=
  normalizeIf n normalize fun i j =>
    trimColumn n thresh (EMul n A fun k => if k = j then 1 else 0) i

/-- `compute_subspace_expm_parallel` (parallel_expm.py:150-268): components of at least 1000
nodes by columns, the others one per task. -/
def subspaceExpmParallel (n : Nat) (E : Nat → Mat K → Mat K) (EMul : Nat → Mat K → (Nat → K) → Nat → K)
    (lab : Nat → Nat) (thresh : Option K) (normalize : Bool) (A : Mat K) : Mat K :=
  normalizeIf n normalize (trim n thresh (rebuild n lab fun c =>
    let idx := compIndices n lab c
    if 1000 ≤ idx.length then parallelExpm idx.length EMul none false (sub idx A)
    else E idx.length (sub idx A)))

/-- Options of `sparse_lapl_expm`. -/
structure ExpmOpts (K : Type) where
  denseExpm : Bool
  nproc : Nat
  thresh : Option K
  normalize : Bool

/-- The values of the `SparseStochMat` with kept indices `idx` and ones on the rest of the
diagonal (see C11 for the format). -/
def expand (idx : List Nat) (T : Mat K) : Mat K := fun i j =>
  if i ∈ idx ∧ j ∈ idx then T (idx.idxOf i) (idx.idxOf j) else if i = j then 1 else 0

/-- `sparse_lapl_expm(L, fact, ...)` (temporal_network.py:2495-2566).  `lab` are the labels
and `nComp` the number of components returned by `connected_components` for the small
matrix. -/
def sparseLaplExpm (n : Nat) (E : Nat → Mat K → Mat K) (EMul : Nat → Mat K → (Nat → K) → Nat → K)
    (stored : Nat → Nat → Bool) (nComp : Nat) (lab : Nat → Nat) (o : ExpmOpts K) (L : Mat K) (fact : K) :
    Mat K :=
  if (List.range n).all fun i => (List.range n).all fun j => !stored i j then eye
  else
    let idx := keptIndices n stored
    let A : Mat K := fun i j => -fact * sub idx L i j
    expand idx
      (if o.denseExpm then E idx.length A
       else if 1000 ≤ idx.length ∧ 1 < nComp then
         if o.nproc = 1 then subspaceExpm idx.length E lab o.thresh o.normalize A
         else subspaceExpmParallel idx.length E EMul lab o.thresh o.normalize A
       else E idx.length A)

end Verif.Trans
