import Verif.TempNet.Model

/-!
# What the temporal network should compute

Independent of the event loop: contacts active at a time and the random-walk Laplacian of a
graph.
-/

set_option linter.dupNamespace false

namespace Verif.TempNet

variable {K : Type} [Field K] [LinearOrder K] [IsStrictOrderedRing K]

/-- The event is a contact between `i` and `j`, in either direction. -/
def Event.Pair (e : Event Nat K) (i j : Nat) : Prop :=
  (e.src = i ∧ e.tgt = j) ∨ (e.src = j ∧ e.tgt = i)

/-- `i` and `j` are in contact at time `t`. -/
def Active (evs : List (Event Nat K)) (t : K) (i j : Nat) : Prop :=
  ∃ e ∈ evs, e.Pair i j ∧ e.start ≤ t ∧ t < e.stop

/-- `i` and `j` have a contact starting at time `t`. -/
def Starts (evs : List (Event Nat K)) (t : K) (i j : Nat) : Prop :=
  ∃ e ∈ evs, e.Pair i j ∧ e.start = t

open Classical in
/-- Number of neighbours of `i` among the nodes `0..n-1`. -/
noncomputable def degree (n : Nat) (G : Nat → Nat → Prop) (i : Nat) : Nat :=
  ((Finset.range n).filter fun j => G i j).card

open Classical in
/-- Random-walk Laplacian `I - D⁻¹ A` of a graph on `0..n-1`; a node without neighbours
stays where it is. -/
noncomputable def walkLaplacian (n : Nat) (G : Nat → Nat → Prop) (i j : Nat) : K :=
  (if i = j then 1 else 0) -
    if degree n G i = 0 then (if i = j then 1 else 0)
    else if G i j then 1 / (degree n G i : K) else 0

/-- Every node of the table is one of `0..n-1`. -/
def InRange (n : Nat) (evs : List (Event Nat K)) : Prop := ∀ e ∈ evs, e.src < n ∧ e.tgt < n

/-- No event connects a node with itself. -/
def NoSelfLoops (evs : List (Event Nat K)) : Prop := ∀ e ∈ evs, e.src ≠ e.tgt

/-- Every event lasts. -/
def Lasting (evs : List (Event Nat K)) : Prop := ∀ e ∈ evs, e.start < e.stop

/-- Two events of the same pair never overlap: the one listed first ends before or when the
other starts, or the one listed second ends before the other starts. -/
def Separate (evs : List (Event Nat K)) : Prop :=
  evs.Pairwise fun e f => e.Pair f.src f.tgt → e.stop ≤ f.start ∨ f.stop < e.start

/-- Tables of lasting contacts between different nodes of `0..n-1`, where contacts of the same
pair do not overlap. -/
structure Proper (n : Nat) (evs : List (Event Nat K)) : Prop where
  inRange : InRange n evs
  noLoops : NoSelfLoops evs
  lasting : Lasting evs
  separate : Separate evs

/-- `k` is the index a window boundary stands for: the default when it is not given, else
the index of the largest time not exceeding it, or 0 if there is none. -/
def Resolves (times : List K) (k : Nat) (dflt : Nat) : Option K → Prop
  | none => k = dflt
  | some t => ∃ hk : k < times.length, (times[k] ≤ t ∨ k = 0) ∧
      ∀ (m : Nat) (hm : m < times.length), times[m] ≤ t → m ≤ k

/-- Time a contact spends in the window `[a, b]`. -/
def timeIn (a b : K) (e : Event Nat K) : K := max 0 (min e.stop b - max e.start a)

end Verif.TempNet
