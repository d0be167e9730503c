import Verif.Trans.Model

/-!
# The dense flow integral in machine arithmetic

`FlowIntegralClustering` for dense matrices (`src/flowstab/network_clustering.py:1802-2067`), with
the operations of the machine instead of exact ones.  The operations are parameters without any law:
in particular the order in which `@` adds the products is not specified.  Matrices are functions of
the row and the column; the size is `n`.  The grid is given by the positions `_k_integral_grid`
(computed from the times by `Verif.Flow.gridIndices`).
-/

namespace Verif.FloatFlow

/-- The operations on numbers used here. -/
structure Ops (F : Type) where
  zero : F
  one : F
  add : F → F → F
  sub : F → F → F
  neg : F → F
  mul : F → F → F
  div : F → F → F
  /-- `x == 0` -/
  isZero : F → Bool
  /-- `a < b` -/
  lt : F → F → Bool
  /-- an entry of `A @ B`: sum of the products of the pairs -/
  dot : List (F × F) → F

variable {F : Type}

/-- A dense matrix. -/
abbrev Mat (F : Type) := Nat → Nat → F

/-- `A @ B`. -/
def matmul (o : Ops F) (n : Nat) (A B : Mat F) : Mat F := fun i j =>
  o.dot ((List.range n).map fun k => (A i k, B k j))

/-- `P(d)`: `np.diag(d)` (network_clustering.py:1984). -/
def diag (o : Ops F) (d : Nat → F) : Mat F := fun i j => if i = j then d i else o.zero

/-- The loop of `_compute_T_list` (network_clustering.py:1949-1951): each matrix is multiplied to
the last one. -/
def products (o : Ops F) (n : Nat) (last : Mat F) : List (Mat F) → List (Mat F)
  | [] => []
  | T :: rest =>
    let next := matmul o n last T
    next :: products o n next rest

/-- `self.T_list` from `T_inter_list` (network_clustering.py:1857-1862, 1937-1958); an empty list is
an `IndexError`. -/
def tList (o : Ops F) (n : Nat) (reverse : Bool) (Ms : List (Mat F)) : Option (List (Mat F)) :=
  match (if reverse then Ms.reverse else Ms) with
  | [] => none
  | M :: rest => some (M :: products o n M rest)

/-- `np.diff(time_list)` (network_clustering.py:1971). -/
def diffs (o : Ops F) : List F → List F
  | [] => []
  | [_] => []
  | a :: b :: r => o.sub b a :: diffs o (b :: r)

/-- `dt_list` (network_clustering.py:1971-1974). -/
def steps (o : Ops F) (ts : List F) : List F :=
  match ts with
  | [] => []
  | t0 :: _ => if o.lt (ts.getLastD t0) t0 then (diffs o ts).map o.neg else diffs o ts

/-- `pk = self.p1 @ Tk; pk[np.where(pk == 0)] = 1` (network_clustering.py:2008-2010). -/
def mass (o : Ops F) (n : Nat) (p : Nat → F) (T : Mat F) : Nat → F := fun j =>
  let s := o.dot ((List.range n).map fun i => (p i, T i j))
  if o.isZero s then o.one else s

/-- `PTk = Tk @ P(1/pk) @ Tk.T * dtk` (network_clustering.py:2012). -/
def stepMatrix (o : Ops F) (n : Nat) (p : Nat → F) (T : Mat F) (dt : F) : Mat F :=
  let D := diag o fun k => o.div o.one (mass o n p T k)
  let PT := matmul o n (matmul o n T D) fun i j => T j i
  fun i j => o.mul (PT i j) dt

/-- `P(self.p1) @ IPT @ P(self.p1) * (1/total_time)` (network_clustering.py:2049). -/
def stored (o : Ops F) (n : Nat) (p : Nat → F) (ipt : Mat F) (total : F) : Mat F :=
  let M := matmul o n (matmul o n (diag o p) ipt) (diag o p)
  fun i j => o.mul (M i j) (o.div o.one total)

/-- State of the loop: `IPT`, `total_time` and `IPT_list`. -/
structure Loop (F : Type) where
  ipt : Mat F
  total : F
  out : List (Mat F)

/-- One pass of the loop (network_clustering.py:1998-2049). -/
def pass (o : Ops F) (n : Nat) (p : Nat → F) (ks : List Nat) (s : Loop F) (e : (Mat F × F) × Nat) : Loop F :=
  let PTk := stepMatrix o n p e.1.1 e.1.2
  let ipt : Mat F := fun i j => o.add (s.ipt i j) (PTk i j)
  let total := o.add s.total e.1.2
  ⟨ipt, total, if e.2 + 1 ∈ ks then s.out ++ [stored o n p ipt total] else s.out⟩

/-- `_compute_integral` (network_clustering.py:1960-2067). -/
def integral (o : Ops F) (n : Nat) (p : Nat → F) (Ts : List (Mat F)) (ts : List F) (ks : List Nat) : List (Mat F) :=
  ((Ts.zip (steps o ts)).zipIdx.foldl (pass o n p ks) ⟨fun _ _ => o.zero, o.zero, []⟩).out

/-- `self.I_list` (network_clustering.py:1916-1922). -/
def iList (o : Ops F) (n : Nat) (p : Nat → F) (Ts : List (Mat F)) (ts : List F) (ks : List Nat) : List (Mat F) :=
  (integral o n p Ts ts ks).map fun PT => fun i j => o.sub (PT i j) (o.mul (p i) (p j))

end Verif.FloatFlow
