import Verif.ClustPool.Model
import Verif.Scripts.Cluster

/-! # What a user expects of the results of `run_clusterings` (C146) -/

set_option linter.unusedSectionVars false

namespace Verif.ClustPool

open Verif.CovMain (Text)
open Verif.ClustMain (resultName tmpName)
open Verif.Scripts.Cluster

variable {K : Type} [Field K] [LinearOrder K] [IsStrictOrderedRing K]

/-- The two files of an integral. -/
def view (dir : Dir K) (f : Text) : Disk K := ⟨tmpOf dir f, resOf dir f⟩

/-- The processes of all these integrals have come to their end. -/
def Ended (p : Pool K) (jobs : List Text) : Prop := ∀ f ∈ jobs, p.proc f = some .done

/-- Directories that can be there after any number of sessions, each with its own options among those
allowed, its own random numbers, on any integrals, with the steps in any order, and stopped at any
point.  At first there were no results and no intermediate clusterings. -/
inductive History (nvi : Clusters → Clusters → Nat → K) (allowed : Cfg → Prop) : Dir K → Prop
  | start (dir : Dir K) : (∀ f, dir (resultName f) = none ∧ dir (tmpName f) = none) → History nvi allowed dir
  | session {dir : Dir K} (cfg : Cfg) (r : Text → Rand K) (order : List Text) : History nvi allowed dir → allowed cfg →
      (∀ f, Valid cfg (r f)) → History nvi allowed (Pool.run nvi cfg r dir order).dir

end Verif.ClustPool
