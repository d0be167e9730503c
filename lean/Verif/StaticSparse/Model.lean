import Verif.Static.Model
import Verif.SparseLouvain.Model

/-!
# Model of `static_clustering` for a csr matrix

The random walk and its powers are computed with scipy's csr operations, which are not
modelled; the stored result is the parameter `T`.
-/

namespace Verif.StaticSparse

open Verif.Csr Verif.Autocov Verif.SparseLouvain
open Verif.Trans (Mat)
open Verif.Static (EigPair stationary)

variable {K : Type} [Field K] [LinearOrder K] [IsStrictOrderedRing K]

/-- What stops the function: the exceptions of `Verif.Static`, or those of the sparse object. -/
inductive Err where
  | walk (e : Verif.Static.SErr)
  | object (e : SparseLouvain.SErr)
  deriving DecidableEq

/-- `static_clustering(A)` for a csr matrix (network_clustering.py:2377-2491): the probabilities are
those of the walk on `A`, `T` holds the transition matrix at time `t`, and the object is
`SparseClustering(p1=pi, p2=pi, T=T)` (2490-2491, 1528-1634). -/
def staticSparse (eig : Mat K → EigPair K) (n : Nat) (A : Mat K) (T : Csr K) (directed : Bool) :
    Except Err (SClu K) :=
  match stationary eig n A directed with
  | .error e => .error (.walk e)
  | .ok p =>
    match mkS (fromT T (some p) (some p)) .none with
    | .error e => .error (.object e)
    | .ok c => .ok c

end Verif.StaticSparse
