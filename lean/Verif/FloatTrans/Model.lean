import Verif.Csr.Model

/-!
# Cumulative transition matrices in machine arithmetic

`ContTempNetwork.compute_transition_matrices`
(`src/flowstab/temporal_network.py:1568-1659`) and
`FlowIntegralClustering._compute_T_list` (`src/flowstab/network_clustering.py:1936-1958`)
for matrices stored as compressed sparse rows, with the number operations of the machine
instead of exact ones.  The operations are parameters without any law.  A matrix is the
list of its rows, a row the list of its stored entries (column, value) in storage order.
-/

namespace Verif.FloatTrans

/-- The operations on numbers used here. -/
structure Ops (F : Type) where
  zero : F
  one : F
  add : F → F → F
  mul : F → F → F
  div : F → F → F
  /-- `x == 0.0` -/
  isZero : F → Bool
  /-- numpy's `a.sum()`, whose order of additions is not specified -/
  sum : List F → F

variable {F : Type}

/-- Stored entries of a row. -/
abbrev Row (F : Type) := List (Nat × F)

/-- Rows of a matrix. -/
abbrev Mat (F : Type) := List (Row F)

/-- `SPA::scatter` (sparse_accumulator.cpp:44-55): the first value at a position is
written, later ones are added.  scipy's `csr_matmat` adds the first value to 0, which gives
the same number. -/
def scatter (o : Ops F) (v : F) (j : Nat) : Row F → Row F
  | [] => [(j, v)]
  | (c, w) :: l => if c = j then (c, o.add w v) :: l else (c, w) :: scatter o v j l

/-- One row of `A @ B` (temporal_network.py:1637, 1645; network_clustering.py:1953): for
each stored entry `(k, a)` of the row of `A` and each stored entry `(j, b)` of row `k` of
`B`, `a*b` is accumulated at `j`. -/
def rowProd (o : Ops F) (r : Row F) (B : Mat F) : Row F :=
  r.foldl (fun acc e => (B.getD e.1 []).foldl
    (fun acc e' => scatter o (o.mul e.2 e'.2) e'.1 acc) acc) []

/-- `A @ B`. -/
def matmul (o : Ops F) (A B : Mat F) : Mat F := A.map fun r => rowProd o r B

/-- Sum of a row: the compiled loop (`_cython_sparse_stoch.pyx:462-465`) or numpy
(`_cython_subst.py:43`). -/
def rowSum (o : Ops F) (compiled : Bool) (r : Row F) : F :=
  if compiled then r.foldl (fun s e => o.add s e.2) o.zero else o.sum (r.map Prod.snd)

/-- Body of the loop of `inplace_csr_row_normalize` with `row_sum = 1.0`
(`_cython_sparse_stoch.pyx:461-479`, `_cython_subst.py:42-45`). -/
def normRow (o : Ops F) (compiled : Bool) (r : Row F) : Row F :=
  let s := rowSum o compiled r
  if o.isZero s then r else r.map fun e => (e.1, o.div e.2 (o.div s o.one))

/-- `inplace_csr_row_normalize(X)` (sparse_stoch_mat.py:537-587). -/
def normalize (o : Ops F) (compiled : Bool) (A : Mat F) : Mat F := A.map (normRow o compiled)

/-- The loop over the inter-event matrices (temporal_network.py:1625-1650, with
`tol=None` and `save_intermediate=True`; network_clustering.py:1949-1956): the matrix
reached so far, the remaining ones.  The result lists the matrices appended. -/
def loop (o : Ops F) (compiled : Bool) (last : Mat F) : List (Mat F) → List (Mat F)
  | [] => []
  | T :: rest =>
    let next := normalize o compiled (matmul o last T)
    next :: loop o compiled next rest

/-- `T[lamda]` after `compute_transition_matrices` (temporal_network.py:1584-1650),
`T_list` after `_compute_T_list`: an empty list of inter-event matrices is an
`IndexError`.  With `reverse_time` the inter-event matrices are taken from the last to the
first (1584-1591). -/
def cumulative (o : Ops F) (compiled reverse : Bool) (Ts : List (Mat F)) : Option (List (Mat F)) :=
  match (if reverse then Ts.reverse else Ts) with
  | [] => none
  | T :: rest => some (T :: loop o compiled T rest)

/-- The same with `save_intermediate=False` (1608-1616, 1644-1650): only the last matrix is
kept. -/
def final (o : Ops F) (compiled reverse : Bool) (Ts : List (Mat F)) : Option (Mat F) :=
  match (if reverse then Ts.reverse else Ts) with
  | [] => none
  | T :: rest => some (rest.foldl (fun last T => normalize o compiled (matmul o last T)) T)

end Verif.FloatTrans
