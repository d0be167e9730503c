import Verif.FloatFlow.Model
import Verif.Flow.Spec

/-!
# Vocabulary for the statements about the flow integral in machine arithmetic
-/

namespace Verif.FloatFlow

open Verif.Trans (prod)

variable {K : Type} [Field K] [LinearOrder K] [IsStrictOrderedRing K]

/-- Zero, or between the smallest and the largest number without underflow or overflow. -/
def InRange (lo hi x : K) : Prop := x = 0 ∨ lo ≤ x ∧ x ≤ hi

/-- Floating point arithmetic.  Operations on non-negative numbers return the exact result up to a
relative error `u` as long as it is zero or between `lo` and `hi`.  A subtraction is exact up to
`u` times the result, or `u * lo` if the result is smaller than `lo`.  In a sum of `m` products of
non-negative numbers, in any order and with or without fused operations, each product is rounded
at most `m` times. -/
structure Rounds (u lo hi : K) (o : Ops K) : Prop where
  zero : o.zero = 0
  one : o.one = 1
  neg : ∀ a, o.neg a = -a
  isZero : ∀ a, o.isZero a = decide (a = 0)
  lt : ∀ a b, o.lt a b = decide (a < b)
  add : ∀ a b, 0 ≤ a → 0 ≤ b → InRange lo hi (a + b) → |o.add a b - (a + b)| ≤ u * (a + b)
  sub : ∀ a b, |a - b| ≤ hi → |o.sub a b - (a - b)| ≤ u * max |a - b| lo
  mul : ∀ a b, 0 ≤ a → 0 ≤ b → InRange lo hi (a * b) → |o.mul a b - a * b| ≤ u * (a * b)
  div : ∀ a b, 0 ≤ a → 0 < b → InRange lo hi (a / b) → |o.div a b - a / b| ≤ u * (a / b)
  dot : ∀ l : List (K × K), (∀ e ∈ l, 0 ≤ e.1 ∧ 0 ≤ e.2 ∧ (e.1 * e.2 = 0 ∨ lo ≤ e.1 * e.2)) →
    (1 + u) ^ l.length * (l.map fun e => e.1 * e.2).sum ≤ hi →
    (1 - u) ^ l.length * (l.map fun e => e.1 * e.2).sum ≤ o.dot l ∧
      o.dot l ≤ (1 + u) ^ l.length * (l.map fun e => e.1 * e.2).sum

/-- Zero, or between `δ` and `1/δ`. -/
def Moderate (δ x : K) : Prop := x = 0 ∨ δ ≤ x ∧ δ * x ≤ 1

/-- The flow does not involve extreme numbers: probabilities at the start, transition probabilities
of each step and from the start, lengths of the steps, number of nodes and number of steps. -/
structure ModerateFlow (δ : K) (n : Nat) (p : Nat → K) (Ms : List (Mat K)) (l : List (K × Mat K)) : Prop where
  nodes : δ * n ≤ 1
  number : δ * l.length ≤ 1
  start : ∀ i < n, 0 ≤ p i ∧ Moderate δ (p i)
  step : ∀ M ∈ Ms, ∀ i < n, ∀ j < n, 0 ≤ M i j ∧ Moderate δ (M i j)
  flow : ∀ e ∈ l, (0 < e.1 ∧ Moderate δ e.1) ∧ ∀ i < n, ∀ j < n, 0 ≤ e.2 i j ∧ Moderate δ (e.2 i j)

/-- Number of roundings that can add up in an entry of the covariance after `m` steps of a flow
between `n` nodes. -/
def roundings (n m : Nat) : Nat := 3 * m * n + 2 * n + 2 * m + 6

/-- The exponent range of the arithmetic leaves room for the numbers of the flow. -/
def Roomy (u lo hi δ : K) (L : Nat) : Prop :=
  0 ≤ u ∧ u < 1 ∧ 0 < lo ∧ 0 < δ ∧ δ ≤ 1 ∧ lo ≤ (1 - u) ^ L * δ ^ 10 ∧ 1 ≤ (1 - u) ^ L * (δ ^ 10 * hi)

/-- The first `m` steps of a flow given by the transitions from its start: length of the interval
and transition.  Backward, the first interval is the last one in time. -/
def givenSteps (reverse : Bool) (Ts : List (Mat K)) (ts : List K) (m : Nat) : List (K × Mat K) :=
  (List.range m).map fun k =>
    (if reverse then ts.getD (Ts.length - k) 0 - ts.getD (Ts.length - k - 1) 0 else ts.getD (k + 1) 0 - ts.getD k 0,
      Ts.getD k Trans.eye)

end Verif.FloatFlow
