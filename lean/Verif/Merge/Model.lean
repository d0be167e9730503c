import Verif.TempNet.Model

/-!
# Model of the merging of overlapping events

`_merge_overlapping_events` (temporal_network.py:1782-1842) and the loop of the constructor
that calls it (temporal_network.py:217-221).  The nodes are `0..n-1`, as after relabelling,
and the table has the index `0, 1, ...`.
-/

set_option linter.dupNamespace false

namespace Verif.Merge

open Verif.TempNet

variable {K : Type} [Field K] [LinearOrder K] [IsStrictOrderedRing K]

/-- The ending times of the table, which a pass changes, and `events_to_keep`. -/
structure MState (K : Type) where
  ends : Nat → K
  keep : Nat → Bool

/-- An element of `evs_list` (1803-1806): index, starting time and the ending time at the
moment the list was made. -/
structure Snap (K : Type) where
  id : Nat
  start : K
  stop : K
  deriving DecidableEq

/-- `sort_values(by=["starting_times", "ending_times"])` (1804). -/
def Snap.le (a b : Snap K) : Prop := a.start < b.start ∨ (a.start = b.start ∧ a.stop ≤ b.stop)

instance : DecidableRel (Snap.le (K := K)) := fun a b => by unfold Snap.le; infer_instance

/-- `mask_12 | mask_21` (1796-1803). -/
def ofPair (n1 n2 : Nat) (e : Event Nat K) : Bool :=
  (e.src == n1 && e.tgt == n2) || (e.src == n2 && e.tgt == n1)

/-- The events of a pair in time order (1796-1806).  Events already marked for deletion in
this pass are still listed. -/
def pairSnaps (evs : List (Event Nat K)) (st : MState K) (n1 n2 : Nat) : List (Snap K) :=
  ((evs.zipIdx.filter fun p => ofPair n1 n2 p.1).map fun p =>
    (⟨p.2, p.1.start, st.ends p.2⟩ : Snap K)).insertionSort Snap.le

/-- The loop over the events of a pair (1809-1822).  `ev1._replace` returns a new tuple that
is not used, so `ev1` keeps its old ending time. -/
def mergeRun : Snap K → List (Snap K) → MState K → MState K
  | _, [], st => st
  | ev1, ev2 :: rest, st =>
    if ev2.start < ev1.stop then
      mergeRun ev1 rest
        { ends := fun i => if i = ev1.id then ev2.stop else st.ends i
          keep := fun i => if i = ev2.id then false else st.keep i }
    else mergeRun ev2 rest st

/-- The body of the loop over pairs (1796-1822); a pair without events does not occur
because its entry in the adjacency matrix is zero. -/
def mergePair (evs : List (Event Nat K)) (st : MState K) (n1 n2 : Nat) : MState K :=
  match pairSnaps evs st n1 n2 with
  | [] => st
  | ev1 :: rest => mergeRun ev1 rest st

/-- `self.start_time` and `self.end_time` (206-208, 1836-1838). -/
def startTime : List (Event Nat K) → K
  | [] => 0
  | e :: r => (r.map Event.start).foldl min e.start

/-- `self.end_time` (208, 1838). -/
def endTime : List (Event Nat K) → K
  | [] => 0
  | e :: r => (r.map Event.stop).foldl max e.stop

/-- The pairs visited in one pass: `for n1 in node_array: for n2 in (A[n1,:] > 0).nonzero()`
(1788-1793). -/
def visits (n : Nat) (evs : List (Event Nat K)) : List (Nat × Nat) :=
  (List.range n).flatMap fun n1 =>
    ((List.range n).filter fun n2 =>
      decide (0 < staticAdjacency evs (startTime evs) (endTime evs) n1 n2)).map fun n2 => (n1, n2)

/-- The state at the start of a pass (1786). -/
def initState (evs : List (Event Nat K)) : MState K :=
  { ends := fun i => (evs[i]?.map Event.stop).getD 0, keep := fun _ => true }

/-- The state at the end of a pass. -/
def passState (n : Nat) (evs : List (Event Nat K)) : MState K :=
  (visits n evs).foldl (fun st p => mergePair evs st p.1 p.2) (initState evs)

/-- The table after a pass (1828-1830). -/
def passTable (n : Nat) (evs : List (Event Nat K)) : List (Event Nat K) :=
  let st := passState n evs
  (evs.zipIdx.filter fun p => st.keep p.2).map fun p => { p.1 with stop := st.ends p.2 }

/-- `num_merged` (1825). -/
def passMerged (n : Nat) (evs : List (Event Nat K)) : Nat :=
  let st := passState n evs
  (evs.zipIdx.filter fun p => !st.keep p.2).length

/-- `while num_merged != 0` (218-220), with a bound on the number of passes; `none` means
that the bound was reached. -/
def mergeLoop (n : Nat) : Nat → List (Event Nat K) → Option (List (Event Nat K))
  | 0, _ => none
  | fuel + 1, evs =>
    if passMerged n evs = 0 then some (passTable n evs)
    else mergeLoop n fuel (passTable n evs)

end Verif.Merge
