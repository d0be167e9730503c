import Verif.TempNet.Model

/-!
# Two listings of the same contacts

The order of the list, the node of a contact that is called source, and repetitions of a
contact are left out.
-/

set_option linter.dupNamespace false

namespace Verif.Listing

open Verif.TempNet

variable {K : Type} [Field K] [LinearOrder K] [IsStrictOrderedRing K]

/-- The same contact: the same two nodes, in either role, from the same time to the same time. -/
def Like {L : Type} (e f : Event L K) : Prop :=
  (e.src = f.src ∧ e.tgt = f.tgt ∨ e.src = f.tgt ∧ e.tgt = f.src) ∧
    e.start = f.start ∧ e.stop = f.stop

/-- Every contact of one list is in the other list. -/
def SameContacts {L : Type} (evs evs' : List (Event L K)) : Prop :=
  (∀ e ∈ evs, ∃ f ∈ evs', Like e f) ∧ ∀ f ∈ evs', ∃ e ∈ evs, Like f e

/-- The same for contacts that only have a starting time. -/
def SameInstants {L : Type} (evs evs' : List (L × L × K)) : Prop :=
  (∀ e ∈ evs, e ∈ evs' ∨ (e.2.1, e.1, e.2.2) ∈ evs') ∧
    ∀ f ∈ evs', f ∈ evs ∨ (f.2.1, f.1, f.2.2) ∈ evs

/-- The same contacts as often: `evs'` is `evs` in another order, with some roles exchanged. -/
def Reordered {L : Type} (evs evs' : List (Event L K)) : Prop :=
  ∃ l, List.Forall₂ Like evs l ∧ l.Perm evs'

/-- The two rows of a contact that ends when it starts are taken in an order that does not
depend on its place in the list; for other contacts the order of the rows is given by the
times. -/
def Steady (evs : List (Event Nat K)) (sf sf' : Nat → Bool) : Prop :=
  (∀ e ∈ evs, e.start ≠ e.stop) ∨ ∃ c, ∀ i, sf i = c ∧ sf' i = c

end Verif.Listing
