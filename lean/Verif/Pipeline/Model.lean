import Verif.Laps.Model
import Verif.Trans.Expm
import Verif.Scripts.SliceModel
import Verif.Scripts.LoadModel

/-!
# Model: the three command line tools, one after the other

`run_laplacians_transmats` writes the matrices of every time slice (the files are those of
`Verif.Laps`), `run_cov_integrals` reads them and writes integrals (`Verif.Scripts.CovModel`), and
`run_clusterings` loads these (`Verif.Scripts.LoadModel`).  Here the files of the first tool get their
contents from the methods of the network (`Verif.Trans`), and the second tool reads them.

Numbers are exact and nothing is trimmed.  Matrices from the exponential only.  The first tool is
taken without the arguments `verbose` that the library does not have (`Verif.Calls`, C138), and
waiting times are taken to be read back from the names as they were (`Verif.CovMain`, C136).
-/

set_option linter.dupNamespace false

namespace Verif.Pipeline

open Verif.Trans Verif.TempNet
open Verif.Scripts (Kind File Slice)

variable {K : Type} [Field K] [LinearOrder K] [IsStrictOrderedRing K]

/-- Content of a file of the first tool, for its only rate: `save_inter_T`
(temporal_network.py:480-563), `save_T` (temporal_network.py:803-840), a flow integral. -/
inductive Held (K : Type)
  | inter (ms : List (Mat K)) (times : List K) (tStart tStop : K)
  | trans (T : Mat K) (tStart tStop : K)
  | flow

/-- What the first tool computes for a slice (run_laplacians_transmats.py:348-366, 386-395, 464-493):
Laplacians of the slice, inter-event matrices for the rate of the waiting time, products.  `none`: an
exception.  Rounding leaves everything as it is, since nothing is trimmed. -/
def sliceCalc {Λ : Type} (env : Env K) (label : K → Λ) (a b : K) : Laps.Calc K Λ (Held K) where
  label := label
  inter := fun k tau =>
    match k with
    | .lin => none
    | .expm =>
      match run env [.laplacians (some a) (some b), .inter (1 / tau) false none none] with
      | .error _ => none
      | .ok s =>
        match s.laps, s.interT.lookup (1 / tau) with
        | some L, some ms =>
          some (.inter ms (((timesOf env.events).take (L.kStop + 1)).drop L.kStart) L.tStart L.tStop)
        | _, _ => none
  round := id
  slice := fun _ reverse v =>
    match v with
    | .inter ms _ tStart tStop => .trans (cumulativeLast env.n reverse none ms) tStart tStop
    | v => v
  flow := fun _ _ _ => .flow

/-- The pairs of matrices and times that the second tool runs through, `d` being 1 or -1
(run_cov_integrals.py:517-518). -/
def pairs (reverse : Bool) (ms : List (Mat K)) (times : List K) : List (Mat K × K) :=
  if reverse then ms.reverse.zip ((gaps times.reverse).map fun x => -x) else ms.zip (gaps times)

/-- The files of a slice for a waiting time, as the second tool reads them
(run_cov_integrals.py:256-304, 510-518, 568).  `none`: a file is missing or cannot be read. -/
def readSlice {Λ : Type} (d : Laps.Disk Λ (Held K)) (l : Λ) : Option (Slice K) :=
  match d (l, .inter .expm), d (l, .slice .expm false), d (l, .slice .expm true) with
  | some (.whole (.inter ms times tStart tStop)), some (.whole (.trans F _ _)), some (.whole (.trans B _ _)) =>
    some ⟨pairs false ms times, |tStop - tStart|, F, B⟩
  | _, _, _ => none

/-- The network of a table of contacts, with the matrix exponential. -/
noncomputable def netEnv {L : Type} [LinearOrder L] (evs : List (Event L ℝ)) (startFirst : Nat → Bool) : Env ℝ :=
  ⟨(ofEvents evs).numNodes, (ofEvents evs).events, startFirst, expm (ofEvents evs).numNodes⟩

end Verif.Pipeline
