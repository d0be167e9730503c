import Verif.Trans.Model

/-!
# Vocabulary: the same contacts in another unit of time
-/

namespace Verif.Units

open Verif.TempNet Verif.Trans

variable {K : Type} [Field K] [LinearOrder K] [IsStrictOrderedRing K]

/-- The same event with its times read off another clock. -/
def Event.clock {L : Type} (φ : K → K) (e : Event L K) : Event L K :=
  ⟨e.src, e.tgt, φ e.start, φ e.stop⟩

/-- Another unit and origin: `c` new units in an old one, the old origin at `s`. -/
def affine (c s : K) (t : K) : K := c * t + s

/-- A median of a list: the mean of the two middle elements of the list in increasing order,
which are the same element if the length is odd. -/
def IsMedian (l : List K) (m : K) : Prop :=
  ∃ s : List K, s.Perm l ∧ s.Pairwise (· ≤ ·) ∧
    ∃ a b, s[(l.length - 1) / 2]? = some a ∧ s[l.length / 2]? = some b ∧ m = (a + b) / 2

end Verif.Units
