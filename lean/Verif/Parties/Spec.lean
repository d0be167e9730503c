import Verif.Clique.Spec

/-!
# Communities of groups that meet: vocabulary of the statements
-/

set_option linter.dupNamespace false

namespace Verif.Parties

open Verif.TempNet Verif.Clique

/-- Moments of `D` between two times. -/
def during (D : Set ℝ) (s u : ℝ) : Set ℝ := D ∩ Set.Ico s u

/-- Mean over the steps of the list of times of the share `exp (-2 k / (k - 1) d / scale)`, where `k` is the size of a
group and `d` the time that it has spent together from the start of the walk to the end of the step.  The walk starts at the first
time, or backward (`reverse`) at the last one. -/
noncomputable def unmixedShare (times : List ℝ) (D : Set ℝ) (k : Nat) (scale : ℝ) (reverse : Bool) : ℝ :=
  (∑ m ∈ Finset.range (times.length - 1), (times.getD (m + 1) 0 - times.getD m 0) *
    Real.exp (-(2 * ((k : ℝ) / (k - 1)) *
      (duration (if reverse then during D (times.getD m 0) (times.getD (times.length - 1) 0)
        else during D (times.getD 0 0) (times.getD (m + 1) 0)) / scale)))) /
    (times.getD (times.length - 1) 0 - times.getD 0 0)

/-- Every label is a member of one of the groups, and each of these meets at the moments that belong to it. -/
structure AllMeet {L : Type} [DecidableEq L] (evs : List (Event L ℝ)) (nodes : List L) (Gs : List (Finset L × Set ℝ)) : Prop where
  members : ∀ G ∈ Gs, ∀ x ∈ G.1, x ∈ nodes
  sizes : ∀ G ∈ Gs, 2 ≤ G.1.card
  meets : ∀ G ∈ Gs, Meets evs G.1 G.2
  all : ∀ x ∈ nodes, ∃ G ∈ Gs, x ∈ G.1

end Verif.Parties
