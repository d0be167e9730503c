import Verif.Scripts.CompPool
import Verif.Scripts.ClusterModel
import Verif.Info.Model

/-!
# Model of the variation of information that `run_clusterings` reports

`worker` in `scripts/run_clusterings.py` compares the clusterings of its repetitions, for the
temporal network (870-896) and for the static one (899-910), and saves the averages as `nvarinf`
and `nvarinf_static`.  Both are computed with `T.shape[0]` as the number of nodes, where `T` comes
from `load_autocov_int` (226-464).  The pairs that are compared are drawn at random: the drawn
indices are an argument.  The clusterings of the temporal network are those of `Verif.Comps`, those
of the static network are an argument.
-/

namespace Verif.NviReport

open Verif.Comps Verif.Autocov
open Verif.Scripts.Cluster (Clusters pick pairs mean)
open Verif.Louvain (Sched Params)

variable {K : Type} [Field K] [LinearOrder K] [IsStrictOrderedRing K]

/-- The options for connected components: none, `only_largest_comp`, `separate_comps`
(run_clusterings.py:395, 409, 424).  The script refuses both
together (run_clusterings.py:205-206). -/
inductive Mode
  | whole
  | largest
  | separate
  deriving DecidableEq

/-- `T.shape[0]` for the `T` that `load_autocov_int` returns: `S.PT`, after the other nodes have been
put together if only the largest component is wanted (run_clusterings.py:303, 380, 409-422). -/
def rowsT (mode : Mode) (A : Autocov K) (label : Nat → Nat) : Nat :=
  match mode with
  | .whole => A.PT.nrows
  | .largest => (A.aggregate (idxList A.PT.nrows label (largestLabel A.PT.nrows label))).PT.nrows
  | .separate => A.PT.nrows

/-- `compute_nvi_sample` for every pair (run_clusterings.py:629-644, 883-892, 907-908). -/
noncomputable def values (N : Nat) : List (Clusters × Clusters) → Except Verif.Info.Err (List ℝ)
  | [] => .ok []
  | (c1, c2) :: l =>
    match Verif.Info.nviLists c1 c2 (some N) with
    | .error e => .error e
    | .ok v =>
      match values N l with
      | .error e => .error e
      | .ok vs => .ok (v :: vs)

/-- `nvarinf` (run_clusterings.py:872-896): `choice` are the drawn indices of pairs, `lists` the
clusterings of the repetitions. -/
noncomputable def temporalNvi (mode : Mode) (A : Autocov K) (label : Nat → Nat) (choice : List Nat)
    (lists : List Clusters) : Except Verif.Info.Err (Option ℝ) :=
  match values (rowsT mode A label) (pick choice (pairs lists)) with
  | .error e => .error e
  | .ok l => .ok (mean l)

/-- `nvarinf_static` (run_clusterings.py:899-908). -/
noncomputable def staticNvi (mode : Mode) (A : Autocov K) (label : Nat → Nat) (choice : List Nat)
    (lists : List Clusters) : Except Verif.Info.Err (Option ℝ) :=
  match values (rowsT mode A label) (pick choice (pairs lists)) with
  | .error e => .error e
  | .ok l => .ok (mean l)

/-- The clusters that one repetition finds in the temporal network (run_clusterings.py:517-593,
738-812). -/
def repetition (mode : Mode) (initP1 : Bool) (A : Autocov K) (label : Nat → Nat) (sc : Nat → Sched)
    (par : Params K) : Except CErr Clusters :=
  match mode with
  | .whole =>
    match runWhole (sc 0) par A with
    | .error e => .error (.run e)
    | .ok (cl, _) => .ok cl
  | .largest =>
    match runLargest (sc 0) par A label with
    | .error e => .error e
    | .ok (cl, _) => .ok cl
  | .separate =>
    match runComps sc par initP1 A label with
    | .error e => .error e
    | .ok (cl, _) => .ok cl

end Verif.NviReport
