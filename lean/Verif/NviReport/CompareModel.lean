import Verif.StaticSparse.Model
import Verif.Scripts.ClusterModel

/-!
# Model of the clusterings of the static network in `run_clusterings`

`compute_static_clustering_fct` in `scripts/run_clusterings.py` (600-620) and the map over the
seeds (816-829).  The random orders of a repetition are an argument.
-/

namespace Verif.NviReport

open Verif.SparseLouvain Verif.StaticSparse
open Verif.Trans (Mat)
open Verif.Static (EigPair)
open Verif.Scripts.Cluster (Draw)
open Verif.Louvain (Sched Params)

variable {K : Type} [Field K] [LinearOrder K] [IsStrictOrderedRing K]

/-- `(A + A.T)/2` (run_clusterings.py:693). -/
def symmetrise (A : Mat K) : Mat K := fun i j => (A i j + A j i) / 2

/-- `compute_static_clustering_fct` (run_clusterings.py:600-620): clusters, stability and seed; `T` is the
stored transition matrix. -/
def staticRepetition (eig : Mat K → EigPair K) (n : Nat) (A : Mat K) (T : Verif.Csr.Csr K) (par : Params K)
    (sc : Sched) (seed : Nat) : Except Verif.StaticSparse.Err (Draw K) :=
  match staticSparse eig n (symmetrise A) T false with
  | .error e => .error e
  | .ok c =>
    match sFindLouvain sc par c with
    | .error e => .error (.object e)
    | .ok (_, p) => .ok ⟨p.clusters, sStability c.A p, seed⟩

/-- The repetitions (run_clusterings.py:816-829); `none` if one of them ends with an exception. -/
def staticRepetitions (eig : Mat K → EigPair K) (n : Nat) (A : Mat K) (T : Verif.Csr.Csr K) (par : Params K) :
    List (Sched × Nat) → Option (List (Draw K))
  | [] => some []
  | (sc, seed) :: l =>
    match staticRepetition eig n A T par sc seed with
    | .error _ => none
    | .ok d =>
      match staticRepetitions eig n A T par l with
      | none => none
      | some ds => some (d :: ds)

end Verif.NviReport
