import Verif.Rounding.Model

/-!
# Vocabulary for the statements about machine arithmetic
-/

namespace Verif.Rounding

open Verif.Partition Verif.Louvain

variable {K : Type} [Field K] [LinearOrder K] [IsStrictOrderedRing K]

/-- Sum of a list of numbers one of which may be missing (NaN). -/
def osum (l : List (Option K)) : Option K := l.foldr (Option.map₂ (· + ·)) (some 0)

/-- Exact arithmetic; `none` is NaN, the result of a division by zero. -/
def exact (K : Type) [Field K] [LinearOrder K] [IsStrictOrderedRing K] : Arith (Option K) where
  zero := some 0
  one := some 1
  add := Option.map₂ (· + ·)
  sub := Option.map₂ (· - ·)
  neg := Option.map (- ·)
  div := fun a b => match a, b with
    | some a, some b => if b = 0 then none else some (a / b)
    | _, _ => none
  sum := osum
  sum2 := fun l => osum (l.map osum)
  le := fun a b => match a, b with
    | some a, some b => decide (a ≤ b)
    | _, _ => false
  lt := fun a b => match a, b with
    | some a, some b => decide (a < b)
    | _, _ => false
  isclose := fun a b => match a, b with
    | some a, some b => decide (isclose a b)
    | _, _ => false
  negligible := fun n l => l.all fun r => r.all fun x => match x with
    | some x => decide (|x| < (1 / 10 ^ 6) / (n : K) ^ 2)
    | none => false

/-- A matrix of exact numbers as a matrix of possibly missing numbers. -/
def lift (S : Nat → Nat → K) : Nat → Nat → Option K := fun i j => some (S i j)

/-- A clustering object with exact numbers. -/
def liftClu (c : Clu K) : Clu (Option K) :=
  { n := c.n, T := lift c.T, S := lift c.S, part := c.part }

/-- Parameters with an exact threshold. -/
def liftPar (par : Params K) : Params (Option K) :=
  { thr := some par.thr, nMeta := par.nMeta, nSub := par.nSub }

/-- Sum of the absolute values of the entries of a list. -/
def absSum (l : List K) : K := (l.map fun x => |x|).sum

/-- Rounding with relative error `u` as long as nothing exceeds the bound `B` (no
overflow): each operation returns the exact result up to a relative error, comparisons are
exact, and a sum of `m` terms, in any order, is off by at most `(1+u)^m - 1` times the sum
of absolute values. -/
structure Rounds (u B : K) (ar : Arith K) : Prop where
  zero : ar.zero = 0
  neg : ∀ a, ar.neg a = -a
  add : ∀ a b, |a| + |b| ≤ B → |ar.add a b - (a + b)| ≤ u * |a + b|
  sub : ∀ a b, |a| + |b| ≤ B → |ar.sub a b - (a - b)| ≤ u * |a - b|
  sum : ∀ l, absSum l ≤ B → |ar.sum l - l.sum| ≤ ((1 + u) ^ l.length - 1) * absSum l
  sum2 : ∀ l : List (List K), absSum l.flatten ≤ B →
    |ar.sum2 l - l.flatten.sum| ≤ ((1 + u) ^ l.flatten.length - 1) * absSum l.flatten
  le : ∀ a b, ar.le a b = decide (a ≤ b)

/-- Sum of the absolute values of all entries of an `n` by `n` matrix. -/
def mass (n : Nat) (S : Nat → Nat → K) : K :=
  ∑ i ∈ Finset.range n, ∑ j ∈ Finset.range n, |S i j|

/-- Bound on the error of a gain in stability computed by the code, for `n` nodes,
covariance `S` and unit roundoff `u`. -/
def gainError (u : K) (n : Nat) (S : Nat → Nat → K) : K :=
  ((1 + u) ^ (n ^ 2 + 2 * n + 3) - 1) * (4 * mass n S)

/-- The object is in the state left by its constructor with the default partition. -/
def FreshDefault {F : Type} (ar : Arith F) (c : Clu F) : Prop :=
  mkClu ar c.n c.T c.S .none = .ok c

/-- The object is in the state left by its constructor for the given clusters. -/
def FreshFrom {F : Type} (ar : Arith F) (cl : List (Finset Nat)) (c : Clu F) : Prop :=
  mkClu ar c.n c.T c.S (.clusterList cl) = .ok c

end Verif.Rounding
