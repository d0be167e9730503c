import Verif.CovMain.Pool

/-!
# Specification: which integrals are asked for
-/

namespace Verif.CovMain

open Verif.Scripts

variable {K : Type} [Field K] [LinearOrder K] [IsStrictOrderedRing K] {τ : Type}

/-- The direction of time is asked for. -/
def Direction.Has : Direction → Bool → Prop
  | .both, _ => True
  | .forward, reverse => reverse = false
  | .backward, reverse => reverse = true

/-- Integrals from the starting point with index `i` in a grid of `len` points are asked for.  Without any of the
`only` options it is enough that there is another grid point in the direction of time. -/
def Asked (o : Starts) (len i : Nat) (reverse : Bool) : Prop :=
  if o.fromStart then i = 0 ∧ reverse = false
  else if o.fromFinish then i + 1 = len ∧ reverse = true
  else o.direction.Has reverse ∧
    if o.fromBoth then (if reverse then i + 1 = len else i = 0)
    else (if reverse then 0 < i ∧ i < len else i + 1 < len)

/-- The integral from the starting point with index `i` to the grid point `b` is asked for: `b` comes later in
the direction of time, and next if only one interval is asked for. -/
def Target (grid : List Nat) (onlyOne : Bool) (i : Nat) (reverse : Bool) (b : Nat) : Prop :=
  ∃ j, grid[j]? = some b ∧ (if reverse then j < i else i < j) ∧ (onlyOne = true → if reverse then j + 1 = i else j = i + 1)

/-- A task has done all its steps. -/
def Finished (s : Pool τ K) (t : Task τ) : Prop := ∃ r, s.proc t = some (r, [])

end Verif.CovMain
