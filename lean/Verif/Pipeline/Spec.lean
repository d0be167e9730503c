import Verif.EndToEnd.Spec
import Verif.Pipeline.Model
import Verif.Laps.Spec
import Verif.Scripts.CovSpec

/-!
# The walk during a part of the time: vocabulary of C140

As in `Verif.EndToEnd.Spec`, between two of the times.
-/

set_option linter.dupNamespace false

namespace Verif.Pipeline

open Verif.TempNet Verif.Trans Verif.Flow Verif.EndToEnd

variable {L : Type} [LinearOrder L]

/-- Mean over the time between the `a`-th and the `b`-th time of the covariances of the walk that
starts at all nodes with equal probability, at the earlier one, or backward at the later one. -/
noncomputable def windowCov (evs : List (Event L ℝ)) (nodes : List L) (times : List ℝ) (scale : ℝ) (reverse : Bool)
    (a b : Nat) : Mat ℝ :=
  let Ms := (List.range' a (b - a)).map (walkStep evs nodes times scale)
  meanCov nodes.length (fun _ => 1 / (nodes.length : ℝ)) (flowSteps nodes.length reverse Ms ((times.take (b + 1)).drop a) Ms.length)

/-- `k` is the last of the times that is not after `t`, or the first one if there is none. -/
def At (times : List ℝ) (t : ℝ) (k : Nat) : Prop :=
  k < times.length ∧ (times.getD k 0 ≤ t ∨ k = 0) ∧ ∀ m < times.length, times.getD m 0 ≤ t → m ≤ k

/-- The first tool has been run for all slices between the bounds, for the waiting times `taus`, with
options that ask for inter-event matrices and products from the exponential.  For each slice it may
have been stopped any number of times before; the last run is complete. -/
structure Written {Λ : Type} [DecidableEq Λ] (env : Env ℝ) (label : ℝ → Λ) (opt : Laps.Opt) (taus bounds : List ℝ)
    (D : Nat → Laps.Disk Λ (Held ℝ)) : Prop where
  expm : opt.use .expm = true
  lin : opt.use .lin = false
  inter : opt.saveInter = true
  slices : opt.slices = true
  /-- different waiting times have different names -/
  labels : ∀ x ∈ taus, ∀ y ∈ taus, label x = label y → x = y
  ordered : bounds.Pairwise (· ≤ ·)
  files : ∀ k a b, bounds[k]? = some a → bounds[k + 1]? = some b → ∃ d, Laps.Stopped opt (sliceCalc env label a b) taus d ∧
    D k = (Laps.worker opt (sliceCalc env label a b) taus d).disk
  others : ∀ k, bounds.length ≤ k + 1 → D k = Laps.empty

/-- The second tool is run on these files, for the waiting time with the name `l`, from the grid point
`start`. -/
structure Reads {Λ : Type} (cfg : Scripts.Cfg ℝ) (n : Nat) (bounds : List ℝ) (D : Nat → Laps.Disk Λ (Held ℝ)) (l : Λ)
    (start : Nat) : Prop where
  nodes : cfg.n = n
  expm : cfg.use .expm = true
  lin : cfg.use .lin = false
  slices : cfg.slices .expm = fun k => readSlice (D k) l
  grid : cfg.allInds.Pairwise (· < ·)
  inside : ∀ a ∈ cfg.allInds, a < bounds.length
  start : cfg.allInds[cfg.indStart]? = some start
  sqrt : ∀ x : ℝ, 0 ≤ x → cfg.sqrt x * cfg.sqrt x = x

end Verif.Pipeline
