import Mathlib.Data.Finset.Card
import Mathlib.Data.Finset.Lattice.Basic
import Mathlib.Algebra.Order.Ring.Rat
import Mathlib.Data.Rat.Defs
import Mathlib.Algebra.Field.Rat

/-!
# Model of `sort_clusters` (network_clustering.py:2553-2589)

Clusters are finite sets of nodes.  Similarities are exact rational numbers, where the code has
floating point numbers.
-/

namespace Verif.Info

/-- The exceptions of `sort_clusters`. -/
inductive SortErr where
  /-- division by the size of an empty union (line 2560) -/
  | zeroDivision
  /-- `.sum(1)` of a one-dimensional array (line 2568) -/
  | axisError
  /-- `max` of an empty array (line 2578) -/
  | valueError
  deriving DecidableEq, Repr

/-- Line 2560: size of the intersection over size of the union. -/
def similarity (c m : Finset Nat) : Except SortErr ℚ :=
  if (c ∪ m).card = 0 then .error .zeroDivision else .ok ((c ∩ m).card / (c ∪ m).card)

/-- Lines 2556-2561: one row for each cluster to sort. -/
def similarityMatrix (cs ms : List (Finset Nat)) : Except SortErr (List (List ℚ)) :=
  cs.mapM fun c => ms.mapM (similarity c)

/-- An entry of the matrix. -/
def entry (M : List (List ℚ)) (i j : Nat) : ℚ := (M.getD i []).getD j 0

/-- Lines 2573-2582, the body of the loop on the classes.  `desc` is `argsort()[::-1]`. -/
def classStep (desc : List ℚ → List Nat) (thresh : ℚ) (M : List (List ℚ)) (all : List Nat) (new : List Nat)
    (cla : Nat) : Except SortErr (List Nat) :=
  let col := all.map fun i => entry M i cla
  let order := desc col
  let scores := order.map fun k => col.getD k 0
  match scores.max? with
  | none => .error .valueError
  | some mx =>
    if 0 < mx then
      .ok ((order.zip (scores.map (· / mx))).foldl (fun new p =>
        if thresh ≤ p.2 ∧ all.getD p.1 0 ∉ new then new ++ [all.getD p.1 0] else new) new)
    else .ok new

/-- Lines 2571-2587: the `while` loop; `none` if it has not ended after `fuel` passes. -/
def sortLoop (desc : List ℚ → List Nat) (thresh : ℚ) (M : List (List ℚ)) (classes total : Nat) :
    Nat → List Nat → List Nat → Except SortErr (Option (List Nat))
  | 0, _, new => if new.length < total then .ok none else .ok (some new)
  | fuel + 1, all, new =>
    if new.length < total then
      match (List.range classes).foldlM (classStep desc thresh M all) new with
      | .error e => .error e
      | .ok new => sortLoop desc thresh M classes total fuel (all.filter fun i => decide (i ∉ new)) new
    else .ok (some new)

/-- `sort_clusters` (network_clustering.py:2553-2589); `none` if the loop has not ended after
`fuel` passes. -/
def sortLike (desc : List ℚ → List Nat) (fuel : Nat) (cs ms : List (Finset Nat)) (thresh : ℚ) :
    Except SortErr (Option (List (Finset Nat))) :=
  match similarityMatrix cs ms with
  | .error e => .error e
  | .ok M =>
    if M = [] then .error .axisError else
    let zero := (List.range M.length).filter fun i => decide ((M.getD i []).sum = 0)
    let all := (List.range M.length).filter fun i => decide (i ∉ zero)
    match sortLoop desc thresh M ms.length (cs.length - zero.length) fuel all [] with
    | .error e => .error e
    | .ok none => .ok none
    | .ok (some new) => .ok (some ((new ++ zero).map fun i => cs.getD i ∅))

end Verif.Info
