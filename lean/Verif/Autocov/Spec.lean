import Verif.Autocov.Lemmas

/-!
# Vocabulary for the statements about autocovariance matrices
-/

namespace Verif.Autocov

set_option linter.unusedSectionVars false
set_option linter.dupNamespace false

open Verif.Csr

variable {K : Type} [Field K] [LinearOrder K] [IsStrictOrderedRing K]

/-- The state the constructor leaves for a square matrix without repeated entries: sorted
rows, and the second copy holds the columns. -/
structure Good (A : Autocov K) : Prop where
  wf : A.PT.WF
  square : A.PT.ncols = A.PT.nrows
  noRepeats : A.PT.NoRepeats
  sorted : SortedRows A.PT
  columns : ColumnsOk A

/-- The groups list every index below `n` exactly once. -/
def IsGrouping (n : Nat) (groups : List (List Nat)) : Prop := groups.flatten.Perm (List.range n)

/-- The two weight vectors sum to one; the scalar form stands for two uniform vectors. -/
def Normalised (n : Nat) : Weights K → Prop
  | .scalars a b => a * b = 1 / (n : K) * (1 / (n : K))
  | .vectors p1 p2 => ∑ i ∈ Finset.range n, p1 i = 1 ∧ ∑ i ∈ Finset.range n, p2 i = 1

/-- Sum of a matrix over a set of rows and a set of columns. -/
def block (S : Nat → Nat → K) (a b : Finset Nat) : K := ∑ i ∈ a, ∑ j ∈ b, S i j

/-- Every row sums to one and no entry is negative. -/
def Stochastic (T : Csr K) : Prop :=
  (∀ i < T.nrows, ∑ j ∈ Finset.range T.nrows, T.val i j = 1) ∧
    ∀ i < T.nrows, ∀ j < T.nrows, 0 ≤ T.val i j

/-- A probability vector. -/
def Distribution (n : Nat) (p : Nat → K) : Prop :=
  (∀ i < n, 0 ≤ p i) ∧ ∑ i ∈ Finset.range n, p i = 1

end Verif.Autocov
