import Verif.Causal.Spec

/-!
# Labels that can be exchanged: vocabulary of the statements
-/

set_option linter.dupNamespace false

namespace Verif.Symmetry

open Verif.TempNet Verif.Causal

variable {L : Type}

/-- Renaming the labels by `f` leads to the same contacts at all times. -/
def SameUnder (evs : List (Event L ℝ)) (f : L → L) : Prop :=
  Function.Injective f ∧ ∀ u x y, Touch evs u (f x) (f y) ↔ Touch evs u x y

/-- `x` and `y` are at all times in contact with the same other labels. -/
def Twins (evs : List (Event L ℝ)) (x y : L) : Prop :=
  ∀ u z, z ≠ x → z ≠ y → (Touch evs u x z ↔ Touch evs u y z)

/-- Number of a label in the list of labels. -/
def place [DecidableEq L] (nodes : List L) (x : L) : Nat := nodes.idxOf x

/-- The clusters of the numbers of the labels `f x` for the labels `x` of the clusters of `cl`. -/
def moved [DecidableEq L] (nodes : List L) (f : L → L) (cl : List (Finset Nat)) : List (Finset Nat) :=
  cl.map fun c => c.biUnion fun i => (nodes[i]?.map fun x => {place nodes (f x)}).getD ∅

end Verif.Symmetry
