import Verif.Flow.Model
import Verif.SparseStoch.Model
import Verif.SparseLouvain.Model

/-!
# Model of `FlowIntegralClustering` with sparse matrices, on the stored arrays

`src/flowstab/network_clustering.py:1802-2149` for matrices that are `csr_matrix` objects (or
`SparseStochMat` objects, which are converted with `tocsr()` wherever they are used,
network_clustering.py:1946, 2008, 2020).  The matrices are arrays `data`, `indices`, `indptr`
(`Verif.Csr`), the covariances are the objects of `Verif.Autocov`, and the clustering is that of
`Verif.SparseLouvain`.  Numbers are exact.  Not modelled: messages, checks of types, the random
state.
-/

set_option linter.dupNamespace false

namespace Verif.SparseFlow

open Verif.Csr Verif.Autocov Verif.SparseStoch

variable {K : Type} [Field K] [LinearOrder K] [IsStrictOrderedRing K]

/-- The matrices given: `T_list`, otherwise `T_inter_list` (network_clustering.py:1810). -/
inductive SMats (K : Type)
  | cumulative (l : List (Csr K))
  | inter (l : List (Csr K))

/-- Arguments of the constructor (network_clustering.py:1802-1807) and the environment: which
version of the helper routines is used, whether `sparse_dot_mkl` is installed, and the square root
of numpy. -/
structure SInput (K : Type) where
  mats : Option (SMats K)
  p1 : Option (Nat → K)
  times : Option (List K)
  grid : Option (List K)
  reverse : Bool
  rtol : K
  be : Backend
  mkl : Bool
  sqrt : K → K

/-- `M.eliminate_zeros()` of scipy (network_clustering.py:2040-2041, 2053): stored zeros are
removed. -/
def dropZeros (M : Csr K) : Csr K :=
  ofRows M.ncols ((List.range M.nrows).map fun i => (M.row i).filter fun e => decide (e.2 ≠ 0))

/-- `set_to_zeroes(M, rtol, use_absolute_value=True)` and `M.eliminate_zeros()`
(network_clustering.py:2038-2041). -/
def trimC (rtol : K) (M : Csr K) : Csr K := dropZeros (csrSetToZeroes rtol true true M)

/-- `A + B` of scipy (network_clustering.py:2043, 2058): sums that come out as zero are not
stored. -/
def addC (A B : Csr K) : Csr K :=
  ofRows A.ncols ((List.range A.nrows).map fun i => canonRow A.ncols true (A.row i ++ B.row i))

/-- `M - diags(M.diagonal())` for the diagonal of `D` (network_clustering.py:2058). -/
def subDiagC (M D : Csr K) : Csr K :=
  ofRows M.ncols ((List.range M.nrows).map fun i => canonRow M.ncols true (M.row i ++ [(i, -D.val i i)]))

/-- `csr_matrix((n, n))` (network_clustering.py:1988): nothing is stored. -/
def emptyC (n : Nat) : Csr K := ofRows n ((List.range n).map fun _ => [])

/-- `sparse_gram_matrix(A, transpose=True)` (sparse_stoch_mat.py:1164-1177): `A @ A.T`; with
`sparse_dot_mkl` only the part on and above the diagonal. -/
def gramC (mkl : Bool) (A : Csr K) : Csr K :=
  let M := A.matmul A.transpose
  if mkl then ofRows M.ncols ((List.range M.nrows).map fun i => (M.row i).filter fun e => decide (i ≤ e.1))
  else M

/-- `_compute_T_list` (network_clustering.py:1937-1958): every new product is normalised.
`sparse_matmul` is `A @ B` (sparse_stoch_mat.py:1154-1162). -/
def productsC (be : Backend) : List (Csr K) → Except Flow.Err (List (Csr K))
  | [] => .error .indexError
  | M :: rest => .ok (rest.foldl (fun acc T => acc ++ [rowNormalize be 1 ((acc.getLastD M).matmul T)]) [M])

/-- The list `self.T_list` (network_clustering.py:1807-1862). -/
def tListC (inp : SInput K) : Except Flow.Err (List (Csr K)) :=
  match inp.mats with
  | none => .error .valueError
  | some (.cumulative []) => .error .indexError
  | some (.cumulative l) => .ok l
  | some (.inter l) => productsC inp.be (if inp.reverse then l.reverse else l)

/-- The array `self.time_list` (network_clustering.py:1870-1876). -/
def timeListC (inp : SInput K) (len : Nat) : List K :=
  let ts := inp.times.getD ((List.range (len + 1)).map fun k : Nat => (k : K))
  if inp.reverse then ts.reverse else ts

/-- `PTk` before trimming (network_clustering.py:2006-2034). -/
def stepMatrixC (inp : SInput K) (p : Nat → K) (T : Csr K) (dt : K) : Csr K :=
  (gramC inp.mkl (matmulDiag T fun k => inp.sqrt (invOrOne (vecMat p T) k))).scale dt

/-- The copy of the integral stored for a time of the grid (network_clustering.py:2047-2059). -/
def storedC (inp : SInput K) (p : Nat → K) (ipt : Csr K) (total : K) : Csr K :=
  let M := (dropZeros (matmulDiag (diagMatmul ipt p) p)).scale (1 / total)
  if inp.mkl then subDiagC (addC M M.transpose) M else M

/-- State of the loop: `IPT`, `total_time` and `IPT_list` (network_clustering.py:1978-1988). -/
structure LoopC (K : Type) where
  ipt : Csr K
  total : K
  out : List (Csr K)

/-- One pass of the loop (network_clustering.py:1998-2059). -/
def stepC (inp : SInput K) (p : Nat → K) (ks : List Nat) (s : LoopC K) (e : (Csr K × K) × Nat) : LoopC K :=
  let PTk := stepMatrixC inp p e.1.1 e.1.2
  let ipt := addC (trimC inp.rtol s.ipt) (trimC inp.rtol PTk)
  let total := s.total + e.1.2
  ⟨ipt, total, if e.2 + 1 ∈ ks then s.out ++ [storedC inp p ipt total] else s.out⟩

/-- `_compute_integral` (network_clustering.py:1960-2067). -/
def integralC (inp : SInput K) (n : Nat) (p : Nat → K) (Ts : List (Csr K)) (ts : List K) (ks : List Nat) :
    List (Csr K) :=
  ((Ts.zip (Flow.steps ts)).zipIdx.foldl (stepC inp p ks) ⟨emptyC n, 0, []⟩).out

/-- `pp1`: one number if `p1` is constant (network_clustering.py:1923-1927). -/
def weightsC (n : Nat) (p : Nat → K) : Weights K :=
  if ∀ i < n, p i = p 0 then .scalars (p 0) (p 0) else .vectors p p

/-- The object after its construction. -/
structure ObjC (K : Type) where
  n : Nat
  p1 : Nat → K
  tList : List (Csr K)
  timeList : List K
  kGrid : List Nat
  tGrid : List K
  iList : List (Autocov K)

/-- `FlowIntegralClustering.__init__` (network_clustering.py:1802-1935).  With no nodes the first
element of `p1` does not exist (1924). -/
def constructC (inp : SInput K) : Except Flow.Err (ObjC K) :=
  match tListC inp with
  | .error e => .error e
  | .ok [] => .error .indexError
  | .ok (T0 :: Tr) =>
    let Ts := T0 :: Tr
    let n := T0.nrows
    let ts := timeListC inp Ts.length
    match Flow.gridIndices inp.reverse ts inp.grid with
    | .error e => .error e
    | .ok g =>
      let p := inp.p1.getD (uniform n)
      let ks := g.map (·.1)
      if n = 0 then .error .indexError
      else .ok ⟨n, p, Ts, ts, ks, g.map (·.2),
        (integralC inp n p Ts ts ks).map fun PT => mkAutocov PT (weightsC n p) true⟩

/-- What a call of `find_louvain_clustering(k)` for an interval not yet clustered ends with. -/
inductive FindErr
  | indexError
  | clustering (e : SparseLouvain.SErr)
  deriving DecidableEq

/-- `find_louvain_clustering(k)` with the other arguments at their defaults, for a `k` that is not
in `self.clustering` (network_clustering.py:2120-2149): the sparse clustering of `I_list[k]`, from
the default partition.  `par` and `sc` are its limits and random choices. -/
def findC (sc : Louvain.Sched) (par : Louvain.Params K) (o : ObjC K) (k : Nat) :
    Except FindErr (Nat × Partition.Part) :=
  match o.iList[k]? with
  | none => .error .indexError
  | some A =>
    match SparseLouvain.mkS A .none with
    | .error e => .error (.clustering e)
    | .ok c =>
      match SparseLouvain.sFindLouvain sc par c with
      | .error e => .error (.clustering e)
      | .ok r => .ok r

end Verif.SparseFlow
