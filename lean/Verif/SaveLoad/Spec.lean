import Verif.SaveLoad.Model

/-!
# Saving and loading of temporal networks: vocabulary of the statements
-/

set_option linter.dupNamespace false

namespace Verif.SaveLoad

open Verif.TempNet Verif.Merge

variable {K : Type} [Field K] [LinearOrder K] [IsStrictOrderedRing K] {V : Type}

/-- What the constructor computes from the table and no method changes afterwards. -/
def derived : List String :=
  ["node_array", "num_events", "start_time", "end_time", "instantaneous_events"]

/-- The states of an object with a given table, nodes and labels: any method may have set any
attribute other than the table, its labels and what is derived from it. -/
inductive After (first : Obj K V) : Obj K V → Prop where
  | refl : After first first
  | set (o : Obj K V) (a : String) (v : Val K V) (ha : a ∉ derived) (ht : a ≠ "events_table")
      (hl : a ≠ "node_to_label_dict") : After first o → After first (o.set a v)

/-- Two networks agree on an attribute. -/
def Same (a : String) (o o' : Obj K V) : Prop := o.attrs a = o'.attrs a

/-- The attributes that both survive by default: saved, or computed by the constructor. -/
def Kept (a : String) : Prop := a ∈ defaultAttributes ∨ a ∈ defaultMatrices ∨ a ∈ derived

instance (a : String) : Decidable (Kept a) := by unfold Kept; infer_instance

/-- The lists of names given to `save` or to `load` name an attribute. -/
def Named (a : String) (mats attrs : Option (List String)) : Prop :=
  a ∈ attrs.getD defaultAttributes ∨ a ∈ mats.getD defaultMatrices

/-- A file name whose last component has no dot. -/
def NoDot (name : List Char) : Prop := '.' ∉ name.reverse.takeWhile (· ≠ '/')

end Verif.SaveLoad
