import Mathlib.Data.List.Sort
import Mathlib.Data.List.Dedup
import Mathlib.Algebra.BigOperators.Group.Finset.Basic
import Mathlib.Algebra.Order.Field.Basic

/-!
# Model of the temporal network and its Laplacians

Classes `ContTempNetwork` and `ContTempInstNetwork` of `src/flowstab/temporal_network.py`:
constructors (107-225, 1944-1972), time grid (1093-1122), closest time (1125-1139), static
adjacency (1046-1090) and Laplacians (1142-1326, 1977-2082).  Times are elements of an
ordered field.  Extra event attributes, logging and timing are left out.
-/

set_option linter.dupNamespace false

namespace Verif.TempNet

variable {K : Type} [Field K] [LinearOrder K] [IsStrictOrderedRing K]

/-- Exceptions: `indexError` (a node outside the matrices, an empty grid), `assertion`
(lists of different lengths) and `attribute` (an attribute that does not exist). -/
inductive Err
  | indexError
  | assertion
  | attribute
  deriving DecidableEq, Repr

/-- One line of the events table (temporal_network.py:138-153). -/
structure Event (L K : Type) where
  src : L
  tgt : L
  start : K
  stop : K
  deriving DecidableEq, Repr

/-- `sort_values(by=["starting_times", "ending_times"])` compares starting times, then
ending times (temporal_network.py:155-156). -/
def Event.le {L : Type} (a b : Event L K) : Prop :=
  a.start < b.start ∨ (a.start = b.start ∧ a.stop ≤ b.stop)

instance {L : Type} : DecidableRel (Event.le (L := L) (K := K)) := fun a b => by
  unfold Event.le; infer_instance

/-- `sorted(set(l))`, `np.unique(l)`. -/
def uniqueSorted {α : Type} [LinearOrder α] (l : List α) : List α :=
  (l.insertionSort (· ≤ ·)).dedup

/-- The columns given to the constructor (temporal_network.py:107-123). -/
def zipEvents {L : Type} : List L → List L → List K → List K → Except Err (List (Event L K))
  | [], [], [], [] => .ok []
  | s :: ss, t :: ts, b :: bs, e :: es =>
    match zipEvents ss ts bs es with
    | .ok r => .ok (⟨s, t, b, e⟩ :: r)
    | .error x => .error x
  | _, _, _, _ => .error .assertion

/-- The object after construction (only the attributes used here).  `labels` is
`node_to_label_dict` as a list: node `n` has label `labels[n]`. -/
structure Net (L K : Type) where
  events : List (Event Nat K)
  labels : List L
  numNodes : Nat
  deriving DecidableEq

/-- `sorted(all_nodes)` (temporal_network.py:128-131). -/
def allLabels {L : Type} [LinearOrder L] (evs : List (Event L K)) : List L :=
  uniqueSorted (evs.map Event.src ++ evs.map Event.tgt)

/-- `node_array` (temporal_network.py:199-202). -/
def nodeArray (evs : List (Event Nat K)) : List Nat := uniqueSorted (evs.map Event.src ++ evs.map Event.tgt)

/-- The constructor with event columns and `relabel_nodes=True`
(temporal_network.py:119-156, 196-202). -/
def ofEvents {L : Type} [LinearOrder L] (evs : List (Event L K)) : Net L K :=
  let labels := allLabels evs
  let evs' := evs.map fun e => (⟨labels.idxOf e.src, labels.idxOf e.tgt, e.start, e.stop⟩ : Event Nat K)
  let table := evs'.insertionSort Event.le
  ⟨table, labels, (nodeArray table).length⟩

/-- `self.times` (temporal_network.py:1093-1122): all starting and ending times, increasing
and without repetition. -/
def timesOf (evs : List (Event Nat K)) : List K :=
  uniqueSorted (evs.map Event.start ++ evs.map Event.stop)

/-- `_get_closest_time` (temporal_network.py:1125-1139). -/
def closestTime (times : List K) (t : K) : Except Err (K × Nat) :=
  match times with
  | [] => .error .indexError
  | t0 :: rest =>
    let t' := if t ∈ t0 :: rest then t
      else if t ≤ t0 then t0
      else ((t0 :: rest).filter (· ≤ t)).foldl max t0
    .ok (t', (t0 :: rest).idxOf t')

/-- The rows of the time grid at time `t` (temporal_network.py:1103-1120, 1267-1278): pairs
of an event index and `is_start`, by increasing index.  For an event with equal starting and
ending time the order of its two rows depends on the sorting routine: `startFirst`. -/
def rowsAt (evs : List (Event Nat K)) (startFirst : Nat → Bool) (t : K) : List (Event Nat K × Bool) :=
  evs.zipIdx.flatMap fun (e, id) =>
    let s := if e.start = t then [(e, true)] else []
    let f := if e.stop = t then [(e, false)] else []
    if startFirst id then s ++ f else f ++ s

/-- The matrices and arrays updated by the event loop (temporal_network.py:1184-1199). -/
structure LapState (K : Type) where
  A : Nat → Nat → K
  deg : Nat → K
  S : Nat → K
  Dm1 : Nat → K

/-- All nodes isolated (temporal_network.py:1184-1199). -/
def LapState.init : LapState K := ⟨fun _ _ => 0, fun _ => 0, fun _ => 1, fun _ => 1⟩

/-- `A[i,j] = v; A[j,i] = v`. -/
def setPair (A : Nat → Nat → K) (i j : Nat) (v : K) : Nat → Nat → K :=
  fun a b => if a = j ∧ b = i then v else if a = i ∧ b = j then v else A a b

/-- `deg[i] += v`. -/
def addAt (f : Nat → K) (i : Nat) (v : K) : Nat → K := fun a => if a = i then f a + v else f a

/-- Update of the self-loop and inverse degree of a node
(temporal_network.py:1239-1251, 1299-1311). -/
def LapState.refresh (s : LapState K) (i : Nat) : LapState K :=
  if s.deg i = 0 then
    { s with S := fun a => if a = i then 1 else s.S a, Dm1 := fun a => if a = i then 1 else s.Dm1 a }
  else
    { s with
      S := fun a => if a = i then 0 else s.S a
      Dm1 := fun a => if a = i then 1 / s.deg i else s.Dm1 a }

/-- A contact starts (temporal_network.py:1232-1237, 1283-1290). -/
def LapState.connect (s : LapState K) (i j : Nat) : LapState K :=
  if s.A i j ≠ 1 then
    { s with A := setPair s.A i j 1, deg := addAt (addAt s.deg i 1) j 1 }
  else s

/-- A contact ends (temporal_network.py:1292-1297). -/
def LapState.disconnect (s : LapState K) (i j : Nat) : LapState K :=
  if 0 < s.A i j then
    { s with A := setPair s.A i j 0, deg := addAt (addAt s.deg i (-1)) j (-1) }
  else s

/-- One row of the time grid (temporal_network.py:1281-1311). -/
def LapState.row (s : LapState K) (e : Event Nat K) (isStart : Bool) : LapState K :=
  let s := if isStart then s.connect e.src e.tgt else s.disconnect e.src e.tgt
  (s.refresh e.src).refresh e.tgt

/-- Indexing the matrices with a node that does not exist fails. -/
def LapState.rowChecked (n : Nat) (s : LapState K) (r : Event Nat K × Bool) : Except Err (LapState K) :=
  if r.1.src < n ∧ r.1.tgt < n then .ok (s.row r.1 r.2) else .error .indexError

/-- `I - Dm1 @ (A + S)` (temporal_network.py:1313-1318). -/
def LapState.laplacian (s : LapState K) (i j : Nat) : K :=
  (if i = j then 1 else 0) - s.Dm1 i * (s.A i j + if i = j then s.S i else 0)

/-- Result of `compute_laplacian_matrices`: window and matrices, in time order. -/
structure Laps (K : Type) where
  tStart : K
  kStart : Nat
  tStop : K
  kStop : Nat
  laplacians : List (Nat → Nat → K)
  adjacencies : List (Nat → Nat → K)

/-- Time and index of a window boundary (temporal_network.py:1206-1222). -/
def resolve (times : List K) (dflt : K × Nat) : Option K → Except Err (K × Nat)
  | none => .ok dflt
  | some t => closestTime times t

/-- The window (temporal_network.py:1206-1222). -/
def window (times : List K) (tStart tStop : Option K) : Except Err ((K × Nat) × (K × Nat)) :=
  match times with
  | [] => .error .indexError
  | t0 :: rest =>
    match resolve (t0 :: rest) (t0, 0) tStart with
    | .error e => .error e
    | .ok a =>
      match resolve (t0 :: rest) ((t0 :: rest).getLast (by simp), rest.length) tStop with
      | .error e => .error e
      | .ok b => .ok (a, b)

/-- The contacts in progress just before the window (temporal_network.py:1226-1251). -/
def initialState (n : Nat) (evs : List (Event Nat K)) (times : List K) (kStart : Nat) :
    Except Err (LapState K) :=
  if 0 < kStart then
    let tkm1 := times.getD (kStart - 1) 0
    ((evs.filter fun e => e.start ≤ tkm1 ∧ tkm1 < e.stop).map fun e => (e, true)).foldlM
      (LapState.rowChecked n) LapState.init
  else .ok LapState.init

/-- The loop over the times of the window (temporal_network.py:1255-1322). -/
def lapLoop (n : Nat) (evs : List (Event Nat K)) (startFirst : Nat → Bool) :
    LapState K → List K → Except Err (List (LapState K))
  | _, [] => .ok []
  | s, t :: ts =>
    match (rowsAt evs startFirst t).foldlM (LapState.rowChecked n) s with
    | .error e => .error e
    | .ok s' =>
      match lapLoop n evs startFirst s' ts with
      | .error e => .error e
      | .ok r => .ok (s' :: r)

/-- `compute_laplacian_matrices` (temporal_network.py:1142-1326). -/
def computeLaplacians (n : Nat) (evs : List (Event Nat K)) (startFirst : Nat → Bool)
    (tStart tStop : Option K) : Except Err (Laps K) :=
  let times := timesOf evs
  match window times tStart tStop with
  | .error e => .error e
  | .ok (a, b) =>
    match initialState n evs times a.2 with
    | .error e => .error e
    | .ok s0 =>
      match lapLoop n evs startFirst s0 (times.filter fun t => a.1 ≤ t ∧ t < b.1) with
      | .error e => .error e
      | .ok states =>
        .ok ⟨a.1, a.2, b.1, b.2, states.map LapState.laplacian, states.map LapState.A⟩

/-- A row of the grid of instantaneous events (temporal_network.py:2044-2064): ends are
ignored, and the self-loops are only updated when a new contact is made. -/
def LapState.instRow (s : LapState K) (e : Event Nat K) (isStart : Bool) : LapState K :=
  if isStart then
    if s.A e.src e.tgt ≠ 1 then
      let d := addAt (addAt s.deg e.src 1) e.tgt 1
      { A := setPair s.A e.src e.tgt 1
        deg := d
        S := fun a => if a = e.tgt then 0 else if a = e.src then 0 else s.S a
        Dm1 := fun a => if a = e.tgt then 1 / d e.tgt else if a = e.src then 1 / d e.src else s.Dm1 a }
    else s
  else s

/-- As `rowChecked`: indexing `S.data` or `A` with a node that does not exist fails.  An
ending event is skipped without looking at its nodes. -/
def LapState.instRowChecked (n : Nat) (s : LapState K) (r : Event Nat K × Bool) :
    Except Err (LapState K) :=
  if r.2 = false ∨ (r.1.src < n ∧ r.1.tgt < n) then .ok (s.instRow r.1 r.2) else .error .indexError

/-- `ContTempInstNetwork.compute_laplacian_matrices` (temporal_network.py:1977-2082): the
matrices are reset after each time. -/
def instLoop (n : Nat) (evs : List (Event Nat K)) (startFirst : Nat → Bool) :
    List K → Except Err (List (LapState K))
  | [] => .ok []
  | t :: ts =>
    match (rowsAt evs startFirst t).foldlM (LapState.instRowChecked n) LapState.init with
    | .error e => .error e
    | .ok s' =>
      match instLoop n evs startFirst ts with
      | .error e => .error e
      | .ok r => .ok (s' :: r)

/-- `ContTempInstNetwork.compute_laplacian_matrices` (temporal_network.py:1977-2082). -/
def computeInstLaplacians (n : Nat) (evs : List (Event Nat K)) (startFirst : Nat → Bool)
    (tStart tStop : Option K) : Except Err (Laps K) :=
  let times := timesOf evs
  match window times tStart tStop with
  | .error e => .error e
  | .ok (a, b) =>
    match instLoop n evs startFirst (times.filter fun t => a.1 ≤ t ∧ t < b.1) with
    | .error e => .error e
    | .ok states =>
      .ok ⟨a.1, a.2, b.1, b.2, states.map LapState.laplacian, states.map LapState.A⟩

/-- The ending times given to instantaneous events: the next starting time, or one more
than the last (temporal_network.py:1953-1957). -/
def nextTime (utimes : List K) (t : K) : K :=
  match utimes.dropWhile (· ≠ t) with
  | _ :: t' :: _ => t'
  | _ => t + 1

/-- The events of a `ContTempInstNetwork` (temporal_network.py:1944-1969), before the
parent constructor. -/
def instEvents {L : Type} (evs : List (L × L × K)) : List (Event L K) :=
  let utimes := uniqueSorted (evs.map fun e => e.2.2)
  evs.map fun e => ⟨e.1, e.2.1, e.2.2, nextTime utimes e.2.2⟩

/-- `compute_static_adjacency_matrix` (temporal_network.py:1046-1090): entries of the
coordinate matrix with equal indices add up. -/
def staticCoo (evs : List (Event Nat K)) (a b : K) (i j : Nat) : K :=
  (((evs.filter fun e => e.start < b ∧ a < e.stop).filter fun e => e.src = i ∧ e.tgt = j).map
    fun e => min e.stop b - max e.start a).sum

/-- `A + A.T` (temporal_network.py:1090). -/
def staticAdjacency (evs : List (Event Nat K)) (a b : K) (i j : Nat) : K :=
  staticCoo evs a b i j + staticCoo evs a b j i

end Verif.TempNet
