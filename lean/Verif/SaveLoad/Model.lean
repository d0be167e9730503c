import Verif.Merge.Model

/-!
# Model of saving and loading of temporal networks

An object is the dictionary of its attributes.  The table of events, the nodes, counts, times
and flags are modelled; all other values (matrices, dictionaries of labels, grids) are opaque.
File names are lists of characters with the separator `/`.
-/

set_option linter.dupNamespace false

namespace Verif.SaveLoad

open Verif.TempNet Verif.Merge

variable {K : Type} [Field K] [LinearOrder K] [IsStrictOrderedRing K] {V : Type}

/-- A row of `events_table` with its column `durations`. -/
structure Row (K : Type) where
  event : Event Nat K
  duration : K

/-- Values of attributes. -/
inductive Val (K V : Type) where
  | table (rows : List (Row K))
  | nodes (l : List Nat)
  | count (n : Nat)
  | time (t : K)
  | flag (b : Bool)
  | other (v : V)

/-- `ContTempNetwork` and `ContTempInstNetwork`. -/
inductive Cls where
  | cont | inst
  deriving DecidableEq

/-- An object: its class and its attributes. -/
structure Obj (K V : Type) where
  cls : Cls
  attrs : String → Option (Val K V)

/-- `setattr(net, a, v)`. -/
def Obj.set (o : Obj K V) (a : String) (v : Val K V) : Obj K V :=
  { o with attrs := fun b => if b = a then some v else o.attrs b }

/-- Exceptions. -/
inductive LErr where
  | fileNotFound | keyError | attributeError | typeError
  deriving DecidableEq

/-- `events_table["durations"] = ending_times - starting_times`
(temporal_network.py:210-211). -/
def withDurations (evs : List (Event Nat K)) : List (Row K) :=
  evs.map fun e => ⟨e, e.stop - e.start⟩

/-- The second half of the constructor (temporal_network.py:198-225), without merging:
`node_to_label_dict` and `_compute_times` are opaque.  The times of an empty table, which are
NaN in Python, are zero. -/
def attrsOf (evs : List (Event Nat K)) (labels noTimes : V) : String → Option (Val K V) := fun a =>
  match a with
  | "events_table" => some (.table (withDurations evs))
  | "node_to_label_dict" => some (.other labels)
  | "node_array" => some (.nodes (nodeArray evs))
  | "num_nodes" => some (.count (nodeArray evs).length)
  | "num_events" => some (.count evs.length)
  | "start_time" => some (.time (startTime evs))
  | "end_time" => some (.time (endTime evs))
  | "_compute_times" => some (.other noTimes)
  | "_overlapping_events_merged" => some (.flag false)
  | "is_directed" => some (.flag false)
  | "instantaneous_events" => some (.flag false)
  | _ => none

/-- `ContTempNetwork(...)` from lists (temporal_network.py:120-225): relabelled events, with
the attribute `label_to_node_dict` when nodes are relabelled. -/
def newCont (evs : List (Event Nat K)) (labels noTimes : V) (labelToNode : Option V) : Obj K V :=
  { cls := .cont
    attrs := fun a => if a = "label_to_node_dict" then labelToNode.map .other
      else attrsOf evs labels noTimes a }

/-- `ContTempInstNetwork(...)` from lists (temporal_network.py:1945-1972), given the events with
their ending times. -/
def newInst (evs : List (Event Nat K)) (labels noTimes : V) (labelToNode : Option V) : Obj K V :=
  let o := { newCont evs labels noTimes labelToNode with cls := .inst }
  (o.set "events_table" (.table (evs.map fun e => ⟨e, 1⟩))).set "instantaneous_events" (.flag true)

/-- `ContTempNetwork(..., merge_overlapping_events=True)` (temporal_network.py:216-221): the
passes replace the table by the merged one, update the number of events and the times
(1828-1840) and neither the nodes nor the column `durations` of the events that are left;
`durs` are the old durations of those. -/
def newMerged (evs merged : List (Event Nat K)) (durs : Event Nat K → K) (labels noTimes grid : V)
    (labelToNode : Option V) : Obj K V :=
  let o := newCont evs labels noTimes labelToNode
  ((((((o.set "events_table" (.table (merged.map fun e => ⟨e, durs e⟩))).set
    "num_nodes" (.count (nodeArray evs).length)).set
    "num_events" (.count merged.length)).set
    "start_time" (.time (startTime merged))).set
    "end_time" (.time (endTime merged))).set
    "time_grid" (.other grid)).set "_overlapping_events_merged" (.flag true)

/-- `cls(events_table=..., relabel_nodes=False, node_to_label_dict=...)`
(temporal_network.py:388-390): the constructor of the instantaneous class does not call the
parent constructor when a table is given, and then reads `self.events_table`
(temporal_network.py:1953-1971). -/
def fromTable (cls : Cls) (rows : List (Row K)) (labels noTimes : V) : Except LErr (Obj K V) :=
  match cls with
  | .inst => .error .attributeError
  | .cont => .ok { cls := .cont, attrs := attrsOf (rows.map Row.event) labels noTimes }

/-- The default `matrices_list` (temporal_network.py:273-281). -/
def defaultMatrices : List String :=
  ["laplacians", "adjacencies", "inter_T", "inter_T_lin", "T", "T_lin", "_stationary_trans",
    "delta_inter_T", "delta_inter_T_lin"]

/-- The default `attributes_list` (temporal_network.py:286-297). -/
def defaultAttributes : List String :=
  ["node_to_label_dict", "events_table", "times", "time_grid", "num_nodes", "_compute_times",
    "_t_start_laplacians", "_k_start_laplacians", "_t_stop_laplacians", "_k_stop_laplacians",
    "_overlapping_events_merged", "is_directed"]

/-- `save_dict` (temporal_network.py:269-311). -/
def saveDict (o : Obj K V) (mats attrs : Option (List String)) : String → Option (Val K V) := fun a =>
  if a ∈ attrs.getD defaultAttributes ∨ a ∈ mats.getD defaultMatrices then o.attrs a else none

/-- `os.path.splitext(filename)[0]` (temporal_network.py:314, 384): the name up to the last dot
of its last component, unless only dots come before it. -/
def stem (name : List Char) : List Char :=
  let r := name.reverse
  match r.dropWhile fun c => c ≠ '.' && c ≠ '/' with
  | '.' :: rest => if (rest.takeWhile (· ≠ '/')).any (· ≠ '.') then rest.reverse else name
  | _ => name

/-- The path of the file. -/
def path (name : List Char) : List Char := stem name ++ ".pickle".toList

/-- The files on disk. -/
abbrev Disk (K V : Type) := List Char → Option (String → Option (Val K V))

/-- `save` (temporal_network.py:233-315). -/
def save (d : Disk K V) (o : Obj K V) (name : List Char) (mats attrs : Option (List String)) :
    Disk K V := fun p => if p = path name then some (saveDict o mats attrs) else d p

/-- The attributes after the loop of `setattr` over the items left in the file
(temporal_network.py:387-400): `g` is the content of the file, `h` the attributes set by the
constructor. -/
def restored (g h : String → Option (Val K V)) (mats attrs : Option (List String)) :
    String → Option (Val K V) := fun a =>
  if (a ≠ "events_table" ∧ a ≠ "node_to_label_dict") ∧
      (a ∈ mats.getD defaultMatrices ∨ a ∈ attrs.getD defaultAttributes)
  then Option.or (g a) (h a) else h a

/-- `load` (temporal_network.py:317-402). -/
def load (d : Disk K V) (cls : Cls) (name : List Char) (mats attrs : Option (List String))
    (noTimes : V) : Except LErr (Obj K V) :=
  match d (path name) with
  | none => .error .fileNotFound
  | some g =>
    match g "events_table" with
    | none => .error .keyError
    | some (.table rows) =>
      match g "node_to_label_dict" with
      | none => .error .keyError
      | some (.other labels) =>
        match fromTable cls rows labels noTimes with
        | .error e => .error e
        | .ok net => .ok { net with attrs := restored g net.attrs mats attrs }
      | some _ => .error .typeError
    | some _ => .error .typeError

end Verif.SaveLoad
