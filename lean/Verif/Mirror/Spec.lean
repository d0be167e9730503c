import Verif.EndToEnd.Spec
import Verif.FlowStability.Model
import Verif.EndToEnd.Model

/-!
# Time read backward: vocabulary of the statements
-/

set_option linter.dupNamespace false

namespace Verif.Mirror

open Verif.TempNet Verif.EndToEnd Verif.FlowStability

/-- The same contact on a clock that runs backward and shows `c` when the other shows zero. -/
def mirror {L : Type} (c : ℝ) (e : Event L ℝ) : Event L ℝ := ⟨e.src, e.tgt, c - e.stop, c - e.start⟩

/-- After a session the partition of a time scale and a direction (backward if `rev`) is `p`. -/
def Holds {L : Type} (w : FWorld (NetObj L) FlowObj) (rev : Bool) (q : Rat) (p : Partition.Part) : Prop :=
  ∃ f, (if rev then w.obj.backward else w.obj.forward) (some q) = some (some f) ∧ f.partition = some p

end Verif.Mirror
