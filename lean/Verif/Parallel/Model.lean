import Verif.Static.Model
import Verif.Scripts.CompPool

/-!
# Model of `compute_parallel_clustering`

`src/flowstab/parallel_clustering.py:37-198`.  The pool of processes is modelled by the order
in which its tasks are done; which process does a task does not matter, as every process holds
the same shared arrays (`initializer`) and no task changes them: the constructors of the
clustering classes copy the matrices (network_clustering.py:361, 396, 1557, 1589).
-/

set_option linter.dupNamespace false

namespace Verif.Parallel

open Verif.Louvain (Sched Params Clu)
open Verif.Autocov Verif.SparseLouvain Verif.Csr Verif.Partition

variable {K : Type} [Field K] [LinearOrder K] [IsStrictOrderedRing K]

/-- A pool at work: the answers received so far, by the position of their task, and the first
exception received. -/
structure Pool (β : Type) where
  answers : List (Option β)
  failed : Option SErr

/-- A process finishes task `i`: its answer is stored at position `i`
(`multiprocessing.pool.MapResult`, one task per chunk, parallel_clustering.py:65-66). -/
def finish {α β : Type} (f : α → Except SErr β) (tasks : List α) (s : Pool β) (i : Nat) : Pool β :=
  match tasks[i]? with
  | none => s
  | some a =>
    match f a with
    | .error e => { s with failed := some (s.failed.getD e) }
    | .ok b => { s with answers := s.answers.set i (some b) }

/-- `pool.map(f, tasks, chunksize=1)` (parallel_clustering.py:65-66, 96-97): the processes
finish the tasks in the order `order`; the call waits for all of them. -/
def poolMap {α β : Type} (f : α → Except SErr β) (tasks : List α) (order : List Nat) :
    Except SErr (List β) :=
  let s := order.foldl (finish f tasks) ⟨tasks.map fun _ => none, none⟩
  match s.failed with
  | some e => .error e
  | none => .ok (s.answers.filterMap id)

/-- A clustering object as the function looks at it: `type(clustering)` is `Clustering`, or
`SparseClustering` with the attributes `_S`, `p1` and `p2`, or another class
(parallel_clustering.py:49, 75). -/
inductive Obj (K : Type) where
  | dense (c : Clu K)
  | sparse (A : Autocov K) (p1 p2 : Nat → K)
  | other

/-- `SparseClustering(S=A)` (network_clustering.py:1542-1565): the attributes `p1` and `p2` take
their default values, whatever the weights stored in `A` are. -/
def ofCov (A : Autocov K) : Obj K :=
  .sparse A (uniform A.PT.nrows) (vecMat (uniform A.PT.nrows) A.PT)

/-- `SparseClustering(T=T, p1=p1)` (network_clustering.py:1551-1600, 1622-1634). -/
def ofT (T : Csr K) (p1 : Nat → K) : Obj K := .sparse (fromT T (some p1) none) p1 (vecMat p1 T)

/-- `_init_sub_worker_sparse` (parallel_clustering.py:121-140), called without its last
argument (parallel_clustering.py:90-93): the covariance the processes work on. -/
def workerCov (A : Autocov K) (p1 p2 : Nat → K) : Autocov K := mkAutocov A.PT (.vectors p1 p2) true

/-- `_compute_sym_clustering_fct` (parallel_clustering.py:144-170) on the arrays of
`_init_sub_worker` (parallel_clustering.py:109-118): clusters, stability, seed.  `sched seed`
stands for the random numbers of the seed. -/
def taskDense (sched : Nat → Sched) (par : Params K) (c : Clu K) (seed : Nat) :
    Except SErr (List (Finset Nat) × K × Nat) :=
  match Verif.Louvain.mkClu c.n c.T c.S .none with
  | .error e => .error (.part e)
  | .ok d =>
    match Verif.Louvain.findLouvain (sched seed) par d with
    | .error e => .error (.part e)
    | .ok (_, p) => .ok (p.clusters, Verif.Louvain.stability c.S p, seed)

/-- `_compute_sym_sparse_clustering_fct` (parallel_clustering.py:172-198). -/
def taskSparse (sched : Nat → Sched) (par : Params K) (W : Autocov K) (seed : Nat) :
    Except SErr (List (Finset Nat) × K × Nat) :=
  match mkS W .none with
  | .error e => .error e
  | .ok c =>
    match sFindLouvain (sched seed) par c with
    | .error e => .error e
    | .ok (_, p) => .ok (p.clusters, sStability W p, seed)

/-- What the call returns: the three tuples as one list of triples, `None`, or an exception;
`unpack` is the `ValueError` of `clusters, stabilites, seeds = zip(*[])`. -/
inductive Outcome (K : Type) where
  | results (l : List (List (Finset Nat) × K × Nat))
  | nothing
  | unpack
  | failed (e : SErr)

/-- `clusters, stabilites, seeds = zip(*...)` (parallel_clustering.py:64-65, 95-96). -/
def unzip (r : Except SErr (List (List (Finset Nat) × K × Nat))) : Outcome K :=
  match r with
  | .error e => .failed e
  | .ok [] => .unpack
  | .ok (a :: l) => .results (a :: l)

/-- `compute_parallel_clustering` (parallel_clustering.py:37-101); `seeds` are the numbers drawn
by `n_random_seeds(num_repeat)` (parallel_clustering.py:104-107). -/
def parallel (sched : Nat → Sched) (par : Params K) (o : Obj K) (seeds order : List Nat) :
    Outcome K :=
  match o with
  | .dense c => unzip (poolMap (taskDense sched par c) seeds order)
  | .sparse A p1 p2 => unzip (poolMap (taskSparse sched par (workerCov A p1 p2)) seeds order)
  | .other => .nothing

end Verif.Parallel
