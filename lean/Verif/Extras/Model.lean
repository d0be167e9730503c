import Verif.SaveLoad.Model
import Mathlib.Algebra.BigOperators.Group.List.Basic

/-!
# Descriptions, timing, documentation and sums over subsets

The parts of the package outside the computation: `ContTempNetwork.__repr__`, the decorators
`timing` and `include_doc_from`, and `_compute_subsets_connectedness`.
-/

set_option linter.dupNamespace false

namespace Verif.Extras

open Verif.TempNet Verif.SaveLoad

/-! ## Description of a network -/

section describe

variable {K V : Type}

/-- `str(self.__class__)`. -/
def className : Cls → String
  | .cont => "<class 'flowstab.temporal_network.ContTempNetwork'>"
  | .inst => "<class 'flowstab.temporal_network.ContTempInstNetwork'>"

/-- `__repr__` (temporal_network.py:228-230).  `str` is the text of a value in an f-string. -/
def describe (str : Val K V → String) (o : Obj K V) : Except LErr String :=
  match o.attrs "num_nodes" with
  | none => .error .attributeError
  | some n =>
    match o.attrs "num_events" with
    | none => .error .attributeError
    | some m => .ok (className o.cls ++ (" with " ++ str n ++ " nodes and " ++ str m ++ " events"))

end describe

/-! ## Timing -/

/-- Values of keyword arguments, as far as the decorator looks at them. -/
inductive Arg
  | none
  | flag (b : Bool)
  | number (i : Int)
  | text (s : String)
  | sequence (length : Nat)
  deriving DecidableEq

/-- Truth value of an argument. -/
def Arg.truthy : Arg → Bool
  | .none => false
  | .flag b => b
  | .number i => i ≠ 0
  | .text s => s ≠ ""
  | .sequence n => n ≠ 0

/-- Exceptions of a decorated function: its own, or the one of the decorator. -/
inductive Fail (E : Type)
  | own (e : E)
  | typeError
  deriving DecidableEq

/-- The part of the line that comes from `log_message` (sparse_stoch_mat.py:71-72), or nothing if
`len` or `+` raise. -/
def message (kw : List (String × Arg)) : Option String :=
  match kw.lookup "log_message" with
  | none => some ""
  | some (.text s) => if s = "" then some "" else some (", " ++ s)
  | some (.sequence 0) => some ""
  | some _ => none

/-- The wrapper of the decorator `timing` (sparse_stoch_mat.py:60-76): result and printed lines of a
call.  `pid` and `elapsed` are the number of the process and the formatted duration. -/
def timed {A R E : Type} (pid : Nat) (name elapsed : String) (f : A → List (String × Arg) → Except E R) (args : A)
    (kw : List (String × Arg)) : Except (Fail E) R × List String :=
  match f args kw with
  | .error e => (.error (.own e), [])
  | .ok r =>
    if ((kw.lookup "verbose").map Arg.truthy).getD false then
      match message kw with
      | none => (.error .typeError, [])
      | some m => (.ok r, ["PID  " ++ toString pid ++ " : function " ++ name ++ ", elapsed time: " ++ elapsed ++ " s" ++ m])
    else (.ok r, [])

/-! ## Documentation -/

/-- The decorator `include_doc_from` (helpers.py:4-9): the new documentation of the function, from
those of the class and the function; `none` is Python's `None`, for which `+=` raises. -/
def includeDoc (cls func : Option String) : Except LErr String :=
  match func with
  | none => .error .typeError
  | some d => .ok (d ++ ("\n" ++ cls.getD ""))

/-! ## Sums over subsets -/

/-- Exceptions of the indexing. -/
inductive IErr
  | indexError
  deriving DecidableEq

/-- A number used as index of an axis of length `n`: negative ones count from the end. -/
def axisIndex (n : Nat) (i : Int) : Option Nat :=
  if 0 ≤ i ∧ i < n then some i.toNat else if i < 0 ∧ -n ≤ i then some (i + n).toNat else none

variable {K : Type} [AddCommMonoid K]

/-- `_compute_subsets_connectedness` (network_clustering.py:686-702).  An empty first list is indexed
with shape `(0,)`, which cannot be combined with a second list of two or more entries.
Simplification: all numbers are checked also when one of the lists is empty, as in current versions of
numpy. -/
def connectedness (n : Nat) (S : Nat → Nat → K) (s1 s2 : List Int) : Except IErr K :=
  if s1 = [] ∧ 2 ≤ s2.length then .error .indexError
  else
    match s1.mapM (axisIndex n) with
    | none => .error .indexError
    | some a =>
      match s2.mapM (axisIndex n) with
      | none => .error .indexError
      | some b => .ok (a.map fun i => (b.map fun j => S i j).sum).sum

end Verif.Extras
