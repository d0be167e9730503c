import Verif.SparseRound.Model
import Verif.Autocov.Spec
import Verif.Rounding.Spec

/-!
# Vocabulary for the statements about sparse clustering in machine arithmetic
-/

namespace Verif.SparseRound

open Verif.Partition Verif.Csr Verif.Autocov
open Verif.SparseLouvain (SErr SClu mkS)

variable {F : Type}

/-- The object is in the state left by the constructor of the covariance for a well-formed
square matrix, and by the constructor of the clustering with the default partition. -/
def Constructed (c : SClu F) : Prop :=
  (∃ (PT : Csr F) (w : Weights F) (sym : Bool), PT.WF ∧ PT.ncols = PT.nrows ∧ c.A = mkAutocov PT w sym) ∧
    mkS c.A .none = .ok c

/-- Some number is stored in the last row. -/
def LastStored (A : Autocov F) : Prop := A.PT.row (A.PT.nrows - 1) ≠ []

/-- Adding a positive number to zero or to a positive number gives a positive number.  True of
IEEE arithmetic, also when the result overflows. -/
structure PosAdd (ar : SArith F) : Prop where
  zero_add : ∀ b, ar.lt ar.zero b = true → ar.lt ar.zero (ar.add ar.zero b) = true
  add : ∀ a b, ar.lt ar.zero a = true → ar.lt ar.zero b = true → ar.lt ar.zero (ar.add a b) = true

/-- Every row stores a number, and all stored numbers are positive. -/
def StoredPositive (ar : SArith F) (A : Autocov F) : Prop :=
  ∀ i < A.PT.nrows, A.PT.row i ≠ [] ∧ ∀ e ∈ A.PT.row i, ar.lt ar.zero e.2 = true

/-- Exact arithmetic on a field; dividing by zero gives zero. -/
def exactS (K : Type) [Field K] [LinearOrder K] [IsStrictOrderedRing K] : SArith K where
  zero := 0
  one := 1
  add := (· + ·)
  sub := (· - ·)
  neg := (- ·)
  div := (· / ·)
  sum := List.sum
  sum2 := fun l => l.flatten.sum
  le := fun a b => decide (a ≤ b)
  lt := fun a b => decide (a < b)
  isclose := fun a b => decide (Verif.Louvain.isclose a b)
  negligible := fun _ _ => false
  mul := (· * ·)
  ofInt := fun i => (i : K)
  allclose := fun a b => Verif.Autocov.allclose a b
  dup := List.sum

end Verif.SparseRound
