import Verif.StateTracking.Model

/-!
# Vocabulary for the statements about state tracking

These definitions only speak about what is registered on the class and about the
recorded events, not about the tables the metaclass precomputes.
-/

namespace Verif.StateTracking

variable {σ V E : Type}

/-- The class registers a property `p` for stage `s`. -/
def IsProp (c : ClassDesc) (p : Name) (s : Int) : Prop :=
  ∃ ign, (⟨p, .prop s ign⟩ : Item) ∈ c.items

/-- The class registers a step `m` with minimal state `lo` and next state `hi`. -/
def IsStep (c : ClassDesc) (m : Name) (lo hi : Int) : Prop :=
  (⟨m, .step (some lo) hi⟩ : Item) ∈ c.items

/-- Class namespaces are dictionaries: no name is registered twice. -/
def UniqueNames (c : ClassDesc) : Prop := (c.items.map (·.name)).Nodup

/-- Every state used in a registration is a member of the enumeration, so it is at
least the smallest member. -/
def StatesKnown (c : ClassDesc) : Prop := ∀ s ∈ c.mentioned, s ∈ c.states

/-- Everything a step with minimal state `lo` needs: the state has reached `lo` and
each property registered for a stage at or below `lo` is flagged as set. -/
def Ready (c : ClassDesc) (lo : Int) (w : World σ V) : Prop :=
  lo ≤ w.current ∧ ∀ p s, IsProp c p s → s ≤ lo → w.flags p = true

/-- The body of the step was executed (whether it returned or raised). -/
def Executed : Outcome E → Prop
  | .returned => True
  | .raised _ => True
  | _ => False

/-- The step call came back with a warning and `None`. -/
def Refused : Outcome E → Prop
  | .refusedState => True
  | .refusedMissing _ => True
  | _ => False

/-- Most recent completed assignment of `p` in a log (newest event first). -/
def lastAssigned (p : Name) : List (Event V) → Option (Option V)
  | [] => none
  | .assigned q v :: l => if q = p then some v else lastAssigned p l
  | _ :: l => lastAssigned p l

/-- Whether the user action is a property assignment. -/
def Op.IsAssign : Op σ V E → Prop
  | .assign _ _ => True
  | .call _ _ => False

instance (r : Outcome E) : Decidable (Executed r) := by cases r <;> unfold Executed <;> infer_instance

end Verif.StateTracking
