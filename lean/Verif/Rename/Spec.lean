import Verif.Trans.Model

/-!
# Vocabulary: the same contacts with other names for the nodes
-/

namespace Verif.Rename

open Verif.TempNet Verif.Trans

variable {K : Type} [Field K] [LinearOrder K] [IsStrictOrderedRing K]

/-- The same event between nodes with other names. -/
def Event.rename {L L' : Type} (f : L → L') (e : Event L K) : Event L' K :=
  ⟨f e.src, f e.tgt, e.start, e.stop⟩

/-- `π` permutes the numbers below `n`. -/
def PermBelow (n : Nat) (π : Nat → Nat) : Prop :=
  (∀ i, i < n → π i < n) ∧ ∀ i j, i < n → j < n → π i = π j → i = j

/-- `B` is the matrix `A` with the nodes renumbered. -/
def Renumbered (n : Nat) (π : Nat → Nat) (A B : Mat K) : Prop :=
  ∀ i j, i < n → j < n → B (π i) (π j) = A i j

/-- `q` is the vector `p` with the nodes renumbered. -/
def RenumberedVec (n : Nat) (π : Nat → Nat) (p q : Nat → K) : Prop :=
  ∀ i, i < n → q (π i) = p i

/-- The exponentials `E`, `E'` do not depend on how the nodes are numbered. -/
def Equivariant (n : Nat) (π : Nat → Nat) (E E' : Mat K → Mat K) : Prop :=
  ∀ A B, Renumbered n π A B → Renumbered n π (E A) (E' B)

end Verif.Rename
