import Verif.Trans.Model
import Verif.Autocov.Model

/-!
# Model of `FlowIntegralClustering`

`src/flowstab/network_clustering.py:1754-2149`.  Matrices are modelled by their values, as in
`Verif.Trans.Model`.  Numbers are exact.  Not modelled: messages, the checks of the types of the
matrices, and the random state handed to the clustering.
-/

set_option linter.dupNamespace false

namespace Verif.Flow

open Verif.Trans Verif.Autocov

variable {K : Type} [Field K] [LinearOrder K] [IsStrictOrderedRing K]

/-- Exceptions. -/
inductive Err
  /-- neither `T_list` nor `T_inter_list`; `max` of an empty array -/
  | valueError
  /-- first element of an empty list; index out of range -/
  | indexError
  /-- `int` of an array with several elements -/
  | typeError
  deriving DecidableEq

/-- The matrices given: `T_list`, otherwise `T_inter_list` (line 1810). -/
inductive Mats (K : Type)
  | cumulative (l : List (Mat K))
  | inter (l : List (Mat K))

/-- Arguments of the constructor, the type of the matrices, and the environment: whether
`sparse_dot_mkl` is installed, and the square root of numpy. -/
structure Input (K : Type) where
  n : Nat
  /-- the matrices are sparse: `csr_matrix` or `SparseStochMat` -/
  sparse : Bool
  mats : Option (Mats K)
  p1 : Option (Nat → K)
  times : Option (List K)
  grid : Option (List K)
  reverse : Bool
  rtol : K
  mkl : Bool
  sqrt : K → K

/-- `_compute_T_list` (lines 1937-1958). -/
def products (n : Nat) (sparse : Bool) : List (Mat K) → Except Err (List (Mat K))
  | [] => .error .indexError
  | M :: rest => .ok (rest.foldl (fun acc T =>
      acc ++ [if sparse then rowNormalize n (mul n (acc.getLastD eye) T) else mul n (acc.getLastD eye) T]) [M])

/-- The list `self.T_list` (lines 1807-1862). -/
def tList (inp : Input K) : Except Err (List (Mat K)) :=
  match inp.mats with
  | none => .error .valueError
  | some (.cumulative []) => .error .indexError
  | some (.cumulative l) => .ok l
  | some (.inter l) => products inp.n inp.sparse (if inp.reverse then l.reverse else l)

/-- The array `self.time_list` (lines 1870-1876). -/
def timeList (inp : Input K) (len : Nat) : List K :=
  let ts := inp.times.getD ((List.range (len + 1)).map fun k : Nat => (k : K))
  if inp.reverse then ts.reverse else ts

/-- The direction of the grid is turned to the direction of time (lines 1884-1888); the sign of
the mean of the differences is the sign of their sum. -/
def turnGrid (reverse : Bool) (g : List K) : List K :=
  let dire := (gaps g).sum
  if reverse && decide (0 < dire) then g.reverse
  else if !reverse && decide (dire < 0) then g.reverse else g

/-- The time of the list that stands for a time of the grid (lines 1896-1903). -/
def gridTime (reverse : Bool) (ts : List K) (t0 t : K) : Except Err K :=
  if t ∈ ts then .ok t
  else if (!reverse && decide (t ≤ t0)) || (reverse && decide (t0 ≤ t)) then .ok t0
  else
    match if reverse then (ts.filter fun u => decide (t ≤ u)).min? else (ts.filter fun u => decide (u ≤ t)).max? with
    | none => .error .valueError
    | some u => .ok u

/-- `int(np.where(time_list == t)[0])` (line 1906). -/
def position (ts : List K) (t : K) : Except Err Nat :=
  match (List.range ts.length).filter fun k => decide (ts[k]? = some t) with
  | [k] => .ok k
  | _ => .error .typeError

/-- `_k_integral_grid` and `_t_integral_grid` (lines 1878-1908). -/
def gridIndices (reverse : Bool) (ts : List K) (grid : Option (List K)) : Except Err (List (Nat × K)) :=
  match ts with
  | [] => .error .indexError
  | t0 :: _ =>
    match grid with
    | none => .ok [(0, t0), (ts.length - 1, ts.getLastD t0)]
    | some g => (turnGrid reverse g).mapM fun t =>
      match gridTime reverse ts t0 t with
      | .error e => .error e
      | .ok u =>
        match position ts u with
        | .error e => .error e
        | .ok k => .ok (k, u)

/-- `np.diff`, with the sign of the direction of time (lines 1972-1975). -/
def steps (ts : List K) : List K :=
  match ts with
  | [] => []
  | t0 :: _ => if ts.getLastD t0 < t0 then (gaps ts).map fun d => -d else gaps ts

/-- `p1 @ Tk` (lines 2008, 2015). -/
def massAt (n : Nat) (p : Nat → K) (T : Mat K) : Nat → K := fun j => ∑ i ∈ Finset.range n, p i * T i j

/-- `set_to_zeroes(M, rtol, use_absolute_value=True)` (line 2038, temporal_network.py:2646-2666). -/
def trim (n : Nat) (rtol : K) (A : Mat K) : Mat K := fun i j => if |A i j| ≤ rtol * maxAbs n A then 0 else A i j

/-- `PTk` (lines 2006-2034): with `sparse_dot_mkl` only the upper triangle is computed. -/
def stepMatrix (inp : Input K) (p : Nat → K) (T : Mat K) (dt : K) : Mat K :=
  let q := massAt inp.n p T
  if inp.sparse then
    let B : Mat K := fun i k => T i k * inp.sqrt (invOrOne q k)
    fun i j => if inp.mkl && decide (j < i) then 0 else (∑ k ∈ Finset.range inp.n, B i k * B j k) * dt
  else fun i j => (∑ k ∈ Finset.range inp.n, T i k * invOrOne q k * T j k) * dt

/-- State of the loop: `IPT`, `total_time` and `IPT_list`. -/
structure Loop (K : Type) where
  ipt : Mat K
  total : K
  out : List (Mat K)

/-- The value stored when the end of an interval is on the grid (lines 2047-2059). -/
def stored (inp : Input K) (p : Nat → K) (ipt : Mat K) (total : K) : Mat K :=
  let M : Mat K := fun i j => p i * ipt i j * p j * (1 / total)
  if inp.sparse && inp.mkl then fun i j => M i j + M j i - (if i = j then M i i else 0) else M

/-- One pass of the loop (lines 1998-2059). -/
def step (inp : Input K) (p : Nat → K) (ks : List Nat) (s : Loop K) (e : (Mat K × K) × Nat) : Loop K :=
  let PTk := stepMatrix inp p e.1.1 e.1.2
  let ipt : Mat K :=
    if inp.sparse then fun i j => trim inp.n inp.rtol s.ipt i j + trim inp.n inp.rtol PTk i j
    else fun i j => s.ipt i j + PTk i j
  let total := s.total + e.1.2
  ⟨ipt, total, if e.2 + 1 ∈ ks then s.out ++ [stored inp p ipt total] else s.out⟩

/-- `_compute_integral` (lines 1960-2067). -/
def integral (inp : Input K) (p : Nat → K) (Ts : List (Mat K)) (ts : List K) (ks : List Nat) : List (Mat K) :=
  ((Ts.zip (steps ts)).zipIdx.foldl (step inp p ks) ⟨fun _ _ => 0, 0, []⟩).out

/-- The object after its construction. -/
structure Obj (K : Type) where
  p1 : Nat → K
  tList : List (Mat K)
  timeList : List K
  kGrid : List Nat
  tGrid : List K
  /-- values of the covariances `I_list` -/
  iList : List (Mat K)

/-- `FlowIntegralClustering.__init__` (lines 1802-1935). -/
def construct (inp : Input K) : Except Err (Obj K) :=
  match tList inp with
  | .error e => .error e
  | .ok Ts =>
    let ts := timeList inp Ts.length
    match gridIndices inp.reverse ts inp.grid with
    | .error e => .error e
    | .ok g =>
      let p := inp.p1.getD (uniform inp.n)
      let ks := g.map (·.1)
      .ok ⟨p, Ts, ts, ks, g.map (·.2), (integral inp p Ts ts ks).map fun M => fun i j => M i j - p i * p j⟩

/-- The transition matrix, for dense matrices, and the covariance given to the clustering by
`find_louvain_clustering(k)` (lines 2120-2136).  Python's index -1 is the last element. -/
def clusterInput (inp : Input K) (o : Obj K) (k : Nat) : Except Err (Option (Mat K) × Mat K) :=
  match (if inp.sparse then .ok none else
    match o.kGrid[k + 1]? with
    | none => .error .indexError
    | some m =>
      match if m = 0 then o.tList.getLast? else o.tList[m - 1]? with
      | none => .error .indexError
      | some T => .ok (some T) : Except Err (Option (Mat K))) with
  | .error e => .error e
  | .ok T =>
    match o.iList[k]? with
    | none => .error .indexError
    | some S => .ok (T, S)

end Verif.Flow
