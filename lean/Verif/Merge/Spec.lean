import Verif.TempNet.Spec

/-!
# Merging of overlapping events: vocabulary of the statements
-/

set_option linter.dupNamespace false

namespace Verif.Merge

open Verif.TempNet

variable {K : Type} [Field K] [LinearOrder K] [IsStrictOrderedRing K]

/-- Two contacts of the same pair of nodes share no time. -/
def NoOverlaps (evs : List (Event Nat K)) : Prop :=
  evs.Pairwise fun e f => e.Pair f.src f.tgt → e.stop ≤ f.start ∨ f.stop ≤ e.start

/-- Contacts of the same pair start at different times. -/
def DistinctStarts (evs : List (Event Nat K)) : Prop :=
  evs.Pairwise fun e f => e.Pair f.src f.tgt → e.start ≠ f.start

/-- A contact does not end before an earlier contact of the same pair. -/
def NoContainment (evs : List (Event Nat K)) : Prop :=
  ∀ e ∈ evs, ∀ f ∈ evs, e.Pair f.src f.tgt → e.start < f.start → e.stop ≤ f.stop

/-- If a contact overlaps the next and that one overlaps a third contact of the same pair,
then the first overlaps the third. -/
def OverlapsTransitive (evs : List (Event Nat K)) : Prop :=
  ∀ e ∈ evs, ∀ f ∈ evs, ∀ g ∈ evs, e.Pair f.src f.tgt → f.Pair g.src g.tgt →
    e.start < f.start → f.start < g.start → f.start < e.stop → g.start < f.stop → g.start < e.stop

end Verif.Merge
