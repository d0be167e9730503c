import Verif.SparseStoch.Props
import Verif.MatFiles.Model

/-! # What a user expects of saved transition matrices (C79) -/

namespace Verif.MatFiles

open Verif.Csr Verif.SparseStoch

variable {K : Type} [Field K] [LinearOrder K] [IsStrictOrderedRing K]

/-- The matrix held for a rate and a parameter. -/
def get {M : Type} (T : Table K M) (l s : K) : Option M := (T.lookup l).bind fun d => d.lookup s

/-- The rates that the caller asks to save. -/
def Wanted (lamda : Option K) (l : K) : Prop := lamda = none ∨ lamda = some l

/-- `B` is `A` where the entries of the stored block that are at most `tol` times the largest
magnitude are replaced by zero. -/
def TrimmedSsm (tol : K) (A B : SSM K) : Prop :=
  B.WF ∧ B.size = A.size ∧ (A.small.data = [] → B = A) ∧ (A.small.data ≠ [] →
    ∃ thr, IsThreshold tol true A.small.data thr ∧ ∀ i j, B.dense i j =
      if i ∈ A.nz ∧ j ∈ A.nz then (if thr < A.dense i j then A.dense i j else 0) else A.dense i j)

/-- The same for a csr matrix. -/
def TrimmedCsr (tol : K) (A B : Csr K) : Prop :=
  B.WF ∧ B.nrows = A.nrows ∧ B.ncols = A.ncols ∧ (A.data = [] → B = A) ∧ (A.data ≠ [] →
    ∃ thr, IsThreshold tol true A.data thr ∧ ∀ i j, i < A.nrows →
      B.val i j = if thr < A.val i j then A.val i j else 0)

/-- `B` is what a file should hold for the matrix `A`. -/
def Kept (round : Option K) (A B : Mx K) : Prop :=
  match round, A, B with
  | none, A, B => B = A
  | some tol, .ssm A, .ssm B => TrimmedSsm tol A B
  | some tol, .csr A, .csr B => TrimmedCsr tol A B
  | some _, _, _ => False

/-- The same for the matrices of a list. -/
def KeptSsm (round : Option K) (A B : SSM K) : Prop :=
  match round with
  | none => B = A
  | some tol => TrimmedSsm tol A B

/-- A matrix in order. -/
def Good : Mx K → Prop
  | .ssm A => A.WF ∧ A.small.NoRepeats
  | .csr M => M.WF ∧ M.NoRepeats
  | .other => False

/-- A compressed matrix or not. -/
def IsSsm : Mx K → Prop
  | .ssm _ => True
  | _ => False

/-- Every matrix of the table. -/
def All {M : Type} (P : M → Prop) (T : Table K M) : Prop := ∀ p ∈ T, ∀ q ∈ p.2, P q.2

/-- The name can be given to the loader: it has not the extension of the other format, and, if
the file is compressed and the name has no extension, there is no uncompressed file of that name. -/
def Fits {H : Type} (d : Disk K H) (name : List Char) (compressed : Bool) : Prop :=
  if compressed then ext name ≠ ".pickle".toList ∧
    (ext name = ".gz".toList ∨ d (name ++ ".pickle".toList) = none)
  else ext name ≠ ".gz".toList

end Verif.MatFiles
