import Verif.TempNet.Model
import Mathlib.Data.Real.Basic

/-!
# Chains of contacts that respect time: vocabulary of the statements
-/

set_option linter.dupNamespace false

namespace Verif.Causal

open Verif.TempNet

variable {L : Type}

/-- `x` and `y` are in contact at time `u`. -/
def Touch (evs : List (Event L ℝ)) (u : ℝ) (x y : L) : Prop :=
  ∃ e ∈ evs, e.start ≤ u ∧ u < e.stop ∧ ((e.src = x ∧ e.tgt = y) ∨ (e.src = y ∧ e.tgt = x))

/-- A walker that is at `x` at time `s` can get to `y`: it can stay where it is, or use a contact at
that time or later, and go on from there at the time of this contact. -/
inductive Reaches (evs : List (Event L ℝ)) : ℝ → L → L → Prop
  | stay (s : ℝ) (x : L) : Reaches evs s x x
  | jump {s u : ℝ} {x y z : L} : s ≤ u → Touch evs u x y → Reaches evs u y z → Reaches evs s x z

/-- A chain of contacts, none of which takes place before the one in front of it, leads from `x` to
`y`. -/
def Leads (evs : List (Event L ℝ)) (x y : L) : Prop := ∃ s, Reaches evs s x y

/-- Walkers from `x` and from `y` can end at the same label. -/
def CanMeet (evs : List (Event L ℝ)) (x y : L) : Prop := ∃ z, Leads evs x z ∧ Leads evs y z

/-- Walkers at `x` and at `y` can come from the same label. -/
def CommonOrigin (evs : List (Event L ℝ)) (x y : L) : Prop := ∃ z, Leads evs z x ∧ Leads evs z y

end Verif.Causal
