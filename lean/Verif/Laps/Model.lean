import Verif.Scripts.CovModel

/-!
# Model of `run_laplacians_transmats`

The worker of one time slice (`src/flowstab/scripts/run_laplacians_transmats.py:280-554`): for
every waiting time it computes the inter-event transition matrices and their products in both
directions of time, and writes those that have no file yet.  The numbers are the subject of C37 to
C41 and C47; here they are given by `Calc`.  The model is about the files: which ones are written,
with which content, after which history of runs that were stopped.

The worker is modelled with the list of its writes, in order: a run that is stopped has made a
beginning of the list.  A file name is the formatted waiting time and a suffix; the suffixes are
`What.suffix`, and `Verif.Laps.C80_names` shows that no search for one of them
(`glob(name + "*")`) finds another.  Static adjacency matrices (lines 293-306) are not modelled, and
neither is an exception while a product of matrices is computed.  The calls of the library are taken
to be accepted; `Verif.Calls` (C138) shows that the script of the repository passes an argument that
the library does not have, so that `Calc.inter` is `none` throughout until this is repaired.
-/

set_option linter.dupNamespace false

namespace Verif.Laps

open Verif.Scripts (Kind File)

/-- The options (run_laplacians_transmats.py:110-200). -/
structure Opt where
  /-- `compute_expm_transmat`, `compute_lin_transmat` -/
  use : Kind → Bool
  saveInter : Bool
  /-- `save_slice_trans` -/
  slices : Bool
  /-- `save_flow_int` -/
  flow : Bool
  /-- the file of inter-event matrices is written in the format that rounds the network's own
  matrices, i.e. without `save_delta_inter_T` (temporal_network.py:547-548, 672-673) -/
  inPlace : Bool

/-- The files of a waiting time. -/
inductive What
  | inter (k : Kind)
  | slice (k : Kind) (reverse : Bool)
  | flow (k : Kind) (reverse : Bool)
  deriving DecidableEq

/-- The end of the name (run_laplacians_transmats.py:317-327, 400-474, 498-512). -/
def What.suffix : What → List Char
  | .inter .expm => "_inter_trans_mat".toList
  | .inter .lin => "_lin_inter_trans_mat".toList
  | .slice .expm false => "_trans_mat".toList
  | .slice .lin false => "_lin_trans_mat".toList
  | .slice .expm true => "_reversed_trans_mat".toList
  | .slice .lin true => "_reversed_lin_trans_mat".toList
  | .flow .expm false => "_flow_int".toList
  | .flow .lin false => "_lin_flow_int".toList
  | .flow .expm true => "_reversed_flow_int".toList
  | .flow .lin true => "_reversed_lin_flow_int".toList

/-- What is computed: the inter-event matrices of a waiting time (`none`: an exception), what
rounding makes of them, and the product and the integral in a direction of time, from the
matrices in memory; and the waiting time as it is written in the names (`{tau_w:.3e}`). -/
structure Calc (τ L V : Type) where
  label : τ → L
  inter : Kind → τ → Option V
  round : V → V
  slice : Kind → Bool → V → V
  flow : Kind → Bool → V → V

variable {τ L V : Type} [DecidableEq L]

/-- The files of the slice. -/
abbrev Disk (L V : Type) := L × What → Option (File V)

/-- One file written. -/
structure Write (L V : Type) where
  key : L × What
  val : V

/-- The disk after a write. -/
def write (d : Disk L V) (w : Write L V) : Disk L V := fun q => if q = w.key then some (.whole w.val) else d q

/-- The disk after a write that was cut off. -/
def tear (d : Disk L V) (w : Write L V) : Disk L V := fun q => if q = w.key then some .torn else d q

/-- A run: the disk now and the writes so far. -/
structure Run (L V : Type) where
  disk : Disk L V
  log : List (Write L V)

/-- Write a file. -/
def Run.put (r : Run L V) (key : L × What) (v : V) : Run L V := ⟨write r.disk ⟨key, v⟩, r.log ++ [⟨key, v⟩]⟩

/-- The inter-event matrices of one kind (run_laplacians_transmats.py:391-412, 415-437): the
matrices in memory, or the exception. -/
def interStep (opt : Opt) (c : Calc τ L V) (tau : τ) (k : Kind) (r : Run L V) :
    Except (Run L V) (Run L V × Option V) :=
  if opt.use k = false then .ok (r, none)
  else
    match c.inter k tau with
    | none => .error r
    | some v =>
      if opt.saveInter = true ∧ (r.disk (c.label tau, .inter k)).isSome = false then
        .ok (r.put (c.label tau, .inter k) (c.round v), some (if opt.inPlace then c.round v else v))
      else .ok (r, some v)

/-- The product of one kind in one direction (run_laplacians_transmats.py:455-493, 496-534). -/
def sliceStep (opt : Opt) (c : Calc τ L V) (tau : τ) (k : Kind) (reverse : Bool) (v : Option V)
    (r : Run L V) : Run L V :=
  match v with
  | none => r
  | some v =>
    if (r.disk (c.label tau, .slice k reverse)).isSome then r
    else if opt.flow then
      (r.put (c.label tau, .flow k reverse) (c.flow k reverse v)).put
        (c.label tau, .slice k reverse) (c.slice k reverse v)
    else r.put (c.label tau, .slice k reverse) (c.slice k reverse v)

/-- One waiting time (run_laplacians_transmats.py:382-552). -/
def tauStep (opt : Opt) (c : Calc τ L V) (r : Run L V) (tau : τ) : Run L V :=
  match interStep opt c tau .expm r with
  | .error r => r
  | .ok (r, e) =>
    match interStep opt c tau .lin r with
    | .error r => r
    | .ok (r, l) =>
      if opt.slices then
        sliceStep opt c tau .lin true l (sliceStep opt c tau .expm true e
          (sliceStep opt c tau .lin false l (sliceStep opt c tau .expm false e r)))
      else r

/-- The search for existing files (run_laplacians_transmats.py:309-344). -/
def allThere (opt : Opt) (c : Calc τ L V) (taus : List τ) (d : Disk L V) : Bool :=
  let there := fun w => taus.all fun tau => (d (c.label tau, w)).isSome
  (there (.inter .expm) && there (.inter .lin) && !opt.slices) ||
    ((there (.slice .expm false) && there (.slice .expm true)) &&
      (there (.slice .lin false) && there (.slice .lin true)))

/-- The worker (run_laplacians_transmats.py:280-554). -/
def worker (opt : Opt) (c : Calc τ L V) (taus : List τ) (d : Disk L V) : Run L V :=
  if allThere opt c taus d then ⟨d, []⟩ else taus.foldl (tauStep opt c) ⟨d, []⟩

end Verif.Laps
