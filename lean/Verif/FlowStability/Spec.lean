import Verif.FlowStability.Model
import Verif.StateTracking.Spec

/-!
# Vocabulary for the statements about `FlowStability`
-/

namespace Verif.FlowStability

open Verif.StateTracking

variable {N F A : Type}

/-- The step that leads to stage `k` of the analysis. -/
def stepOf : Nat → Name
  | 1 => "set_temporal_network"
  | 2 => "compute_laplacian_matrices"
  | 3 => "compute_inter_transition_matrices"
  | 4 => "set_flow_clustering"
  | 5 => "find_louvain_clustering"
  | _ => ""

/-- The event makes results of stage `k` obsolete: an input belonging to an earlier
stage was assigned, or a step leading to an earlier stage was run again. -/
def Undoes (k : Nat) : Event (Val N F) → Prop
  | .assigned p _ => ∃ s : Int, IsProp desc p s ∧ s < k
  | .entered _ => False
  | .completed m => ∃ lo hi : Int, IsStep desc m lo hi ∧ hi < k

/-- In the chronological list of events, stage `k` has been legitimately reached: the
step leading to it was completed at a moment at which stage `k - 1` had been
legitimately reached, and nothing since has made it obsolete. -/
def Reached : Nat → List (Event (Val N F)) → Prop
  | 0, _ => True
  | k + 1, tr => ∃ before after, tr = before ++ .completed (stepOf (k + 1)) :: after ∧
      Reached k before ∧ ∀ ev ∈ after, ¬ Undoes (k + 1) ev

/-- The user action assigns a property (directly or by `set_time_scale`). -/
def FOp.IsAssign : FOp N F A → Prop
  | .assign _ _ => True
  | .setTimeScale _ _ => True
  | _ => False

/-- The time scales a value stands for, if it is one of the documented kinds. -/
def scalesGiven : Option (Val N F) → Option (List (Option Rat))
  | none => some [none]
  | some (.num q) => some [some q]
  | some (.int i) => some [some (i : Rat)]
  | some (.items (.reusable l)) => some l
  | some (.items (.oneShot l)) => some l
  | _ => none

/-- `None` or a positive number. -/
def Positive (t : Option Rat) : Prop := ∀ q, t = some q → 0 < q

/-- What successive loops over `fs.time_scale` yield. -/
def readScales : Nat → Obj N F → List (Option Rat)
  | 0, o => o.timeScale.loop.1
  | k + 1, o => readScales k { o with timeScale := o.timeScale.loop.2 }

end Verif.FlowStability
