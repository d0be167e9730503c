import Verif.Trans.Expm
import Verif.Partition.Spec

/-!
# The static comparison of `run_clusterings`: vocabulary of the statements

`A i j` is the time that `i` and `j` spend in contact, as recorded with `i` as source and `j` as
target.  Nothing here uses the model of the code.
-/

namespace Verif.StaticRuns

open Verif.Trans (Mat eye expm)
open Verif.Partition (Together)

/-- Contact time of a node, as source or as target. -/
def meetings (n : Nat) (A : Mat ℝ) (i : Nat) : ℝ := ∑ j ∈ Finset.range n, (A i j + A j i)

/-- Share of a node in the contact time of all nodes. -/
noncomputable def share (n : Nat) (A : Mat ℝ) (i : Nat) : ℝ :=
  meetings n A i / ∑ k ∈ Finset.range n, meetings n A k

/-- A walker on `i` steps to a node chosen by the time in contact with `i`, whoever was the source. -/
noncomputable def hop (n : Nat) (A : Mat ℝ) : Mat ℝ := fun i j => (A i j + A j i) / meetings n A i

/-- Where walkers that step at rate one are after one unit of time. -/
noncomputable def unitWalk (n : Nat) (A : Mat ℝ) : Mat ℝ := expm n fun i j => hop n A i j - eye i j

open Classical in
/-- The stability of the clusters `cl`: a walker that starts on a node chosen by its share is after one
unit of time in the cluster where it started, compared with two nodes chosen by their shares. -/
noncomputable def stability (n : Nat) (A : Mat ℝ) (cl : List (Finset Nat)) : ℝ :=
  ∑ i ∈ Finset.range n, ∑ j ∈ Finset.range n,
    if Together cl i j then share n A i * unitWalk n A i j - share n A i * share n A j else 0

end Verif.StaticRuns
