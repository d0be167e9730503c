import Verif.Trans.Model

/-!
# Model of the splitting of the work in `run_laplacians_transmats`

`src/flowstab/scripts/run_laplacians_transmats.py:243-273, 528-531`: the time slices, the batches
and the list of the intervals given to the workers.  Numbers are exact.  Not modelled: the bounds
read from the network file (`time_slices_from_net_file`), negative batch numbers, messages.
-/

set_option linter.dupNamespace false

namespace Verif.Scripts

open Verif.Trans

variable {K : Type} [Field K] [LinearOrder K] [IsStrictOrderedRing K]

/-- The loop `while t < tend: t += slice_length; time_slices.append(t)`
(run_laplacians_transmats.py:254-258), stopped after a number of passes: `none` if it has not
ended by then. -/
def sliceLoop (tend len : K) : Nat → K → List K → Option (List K)
  | 0, t, acc => if t < tend then none else some acc
  | fuel + 1, t, acc => if t < tend then sliceLoop tend len fuel (t + len) (acc ++ [t + len]) else some acc

/-- `time_slices` (run_laplacians_transmats.py:246-258): without a length of the slices, the
length is computed from their number; division by zero is an exception, here `none` as well. -/
def timeSlices (t0 tend : K) (sliceLength : Option K) (numSlices : Nat) (fuel : Nat) : Option (List K) :=
  match sliceLength with
  | some len => sliceLoop tend len fuel t0 [t0]
  | none => if numSlices = 0 then none else sliceLoop tend ((tend - t0) / numSlices) fuel t0 [t0]

/-- `full_batch` (run_laplacians_transmats.py:260-264): index, start and end of the slices. -/
def fullBatch (bounds : List K) : List (Nat × K × K) :=
  ((bounds.dropLast.zip bounds.tail).zipIdx).map fun e => (e.2, e.1)

/-- `batch` (run_laplacians_transmats.py:266-272), for a non-negative batch number; `int(a/b)` is
the integer quotient. -/
def batch {α : Type} (full : List α) (total b : Nat) : Option (List α) :=
  if total = 0 then none else
  let size := full.length / total
  if b + 1 = total then some (full.drop (b * size)) else some ((full.take ((b + 1) * size)).drop (b * size))

/-- The intervals given to the workers (run_laplacians_transmats.py:528-530). -/
def workList (full : List (Nat × K × K)) (total b : Nat) (skip : List Nat) : Option (List (Nat × K × K)) :=
  (batch full total b).map fun l => l.filter fun e => decide (e.1 ∉ skip)

/-- The inter-event transition matrices computed for a slice
(run_laplacians_transmats.py:354, 390-392, on a new network), each with the length of its interval
as it is read back from the file: `zip` of the matrices and of the differences of
`times_k_start_to_k_stop+1` (run_cov_integrals.py:517-518, temporal_network.py:486-487). -/
def sliceSteps (env : Env K) (lamda : K) (tStart tStop : Option K) : Except TempNet.Err (List (Mat K × K)) :=
  match TempNet.computeLaplacians env.n env.events env.startFirst tStart tStop with
  | .error e => .error e
  | .ok L =>
    let times := TempNet.timesOf env.events
    .ok ((interMats env.n env.E times L lamda false).zip (gaps ((times.take (L.kStop + 1)).drop L.kStart)))

end Verif.Scripts
