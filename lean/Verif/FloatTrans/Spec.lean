import Verif.FloatTrans.Model
import Verif.Rounding.Spec
import Verif.Trans.Spec

/-!
# Vocabulary for the statements about products in machine arithmetic
-/

namespace Verif.FloatTrans

variable {K : Type} [Field K] [LinearOrder K] [IsStrictOrderedRing K]

/-- Floating point arithmetic: as long as the exact result does not exceed `B` (no
overflow), each operation returns it up to a relative error `u`, or, for results smaller
than `τ` (underflow), up to the absolute error `u * τ`; results of operations on
non-negative numbers are not negative; a sum of `m` terms, in any order, has at most the
error of `m` roundings. -/
structure Rounds (u τ B : K) (o : Ops K) : Prop where
  zero : o.zero = 0
  one : o.one = 1
  isZero : ∀ a, o.isZero a = decide (a = 0)
  add : ∀ a b, |a + b| ≤ B → |o.add a b - (a + b)| ≤ u * max |a + b| τ
  mul : ∀ a b, |a * b| ≤ B → |o.mul a b - a * b| ≤ u * max |a * b| τ
  div : ∀ a b, b ≠ 0 → |a / b| ≤ B → |o.div a b - a / b| ≤ u * max |a / b| τ
  add_nonneg : ∀ a b, 0 ≤ a → 0 ≤ b → a + b ≤ B → 0 ≤ o.add a b
  mul_nonneg : ∀ a b, 0 ≤ a → 0 ≤ b → a * b ≤ B → 0 ≤ o.mul a b
  div_nonneg : ∀ a b, 0 ≤ a → 0 < b → a / b ≤ B → 0 ≤ o.div a b
  sum : ∀ l, (∀ x ∈ l, 0 ≤ x) → (1 + u) ^ l.length * (l.sum + l.length * τ) ≤ B →
    |o.sum l - l.sum| ≤ ((1 + u) ^ l.length - 1) * (l.sum + l.length * τ)

/-- `A[i, j]`: repeated stored entries would be added up. -/
def val (A : Mat K) (i j : Nat) : K := Csr.sumAt (A.getD i []) j

/-- `n` rows; the columns stored in a row are distinct and below `n`. -/
def Square (n : Nat) (A : Mat K) : Prop :=
  A.length = n ∧ ∀ r ∈ A, (r.map Prod.fst).Nodup ∧ ∀ e ∈ r, e.1 < n

/-- No stored value is negative. -/
def NonNeg (A : Mat K) : Prop := ∀ r ∈ A, ∀ e ∈ r, 0 ≤ e.2

/-- Each row sums to one up to `ε`. -/
def RowsSumToOne (n : Nat) (ε : K) (A : Mat K) : Prop :=
  ∀ i < n, |∑ j ∈ Finset.range n, val A i j - 1| ≤ ε

/-- In each row the absolute differences add up to at most `e`. -/
def Close (n : Nat) (e : K) (A : Mat K) (M : Nat → Nat → K) : Prop :=
  ∀ i < n, ∑ j ∈ Finset.range n, |val A i j - M i j| ≤ e

end Verif.FloatTrans
