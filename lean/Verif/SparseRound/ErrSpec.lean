import Verif.SparseRound.Spec
import Verif.Autocov.AggLemmas

/-!
# Vocabulary for the rounding errors of the sparse clustering
-/

namespace Verif.SparseRound

open Verif.Csr Verif.Autocov
open Verif.Rounding (Rounds absSum)

variable {K : Type} [Field K] [LinearOrder K] [IsStrictOrderedRing K]

/-- Rounding with relative error `u` as long as nothing exceeds the bound `B`: no overflow and no
underflow.  Comparisons are exact, and combining entries with the same place, in any order, is
off by at most `(1+u)^m - 1` times the sum of absolute values. -/
structure RoundsS (u B : K) (ar : SArith K) : Prop extends Rounds u B ar.toArith where
  one : ar.one = 1
  lt : ∀ a b, ar.lt a b = decide (a < b)
  mul : ∀ a b, |a * b| ≤ B → |ar.mul a b - a * b| ≤ u * |a * b|
  div : ∀ a b, b ≠ 0 → |a / b| ≤ B → |ar.div a b - a / b| ≤ u * |a / b|
  ofInt : ∀ i : Int, |(i : K)| ≤ B → |ar.ofInt i - i| ≤ u * |(i : K)|
  dup : ∀ l, absSum l ≤ B → |ar.dup l - l.sum| ≤ ((1 + u) ^ l.length - 1) * absSum l

/-- The weights are not negative, and each of the two vectors sums to one up to `r` roundings. -/
def WeightsOk (u : K) (r n : Nat) : Weights K → Prop
  | .scalars a b => 0 ≤ a ∧ 0 ≤ b ∧ |n * a - 1| ≤ (1 + u) ^ r - 1 ∧ |n * b - 1| ≤ (1 + u) ^ r - 1
  | .vectors p1 p2 => (∀ i < n, 0 ≤ p1 i) ∧ (∀ i < n, 0 ≤ p2 i) ∧
      |∑ i ∈ Finset.range n, p1 i - 1| ≤ (1 + u) ^ r - 1 ∧
      |∑ i ∈ Finset.range n, p2 i - 1| ≤ (1 + u) ^ r - 1

/-- Sum of all stored probabilities and of all products of weights. -/
def massS (A : Autocov K) : K :=
  ∑ i ∈ Finset.range A.PT.nrows, ∑ j ∈ Finset.range A.PT.nrows, (A.PT.val i j + A.w.p0 i j)

/-- Number of roundings that enter a computed gain, for `n` nodes. -/
def roundings (r n : Nat) : Nat := n ^ 2 + 14 * n + 16 * r + 25

/-- Bound on the error of a gain computed by the code. -/
def gainErrorS (u : K) (r : Nat) (A : Autocov K) : K :=
  ((1 + u) ^ roundings r A.PT.nrows - 1) * (4 * massS A)

/-- No intermediate result exceeds the bound, and the number of roundings is small compared with
the precision. -/
def InRangeS (u B : K) (r : Nat) (A : Autocov K) : Prop :=
  (1 + u) ^ roundings r A.PT.nrows * (4 * massS A) ≤ B ∧ 2 * (A.PT.nrows : K) + 1 ≤ B ∧
    (1 + u) ^ (roundings r A.PT.nrows) ≤ 3 / 2 ∧ 4 ≤ B

end Verif.SparseRound
