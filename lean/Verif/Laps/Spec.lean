import Verif.Laps.Model

/-! # What a user expects of the files of a time slice (C80) -/

set_option linter.dupNamespace false

namespace Verif.Laps

open Verif.Scripts (Kind File)

variable {τ L V : Type} [DecidableEq L]

/-- The files that the options ask for. -/
def Requested (opt : Opt) : What → Prop
  | .inter k => opt.use k = true ∧ opt.saveInter = true
  | .slice k _ => opt.use k = true ∧ opt.slices = true
  | .flow k _ => opt.use k = true ∧ opt.slices = true ∧ opt.flow = true

/-- `x` is what the file `w` of the waiting time `tau` should hold, where the products are made from
the computed matrices, rounded if `rounded`. -/
def Content (c : Calc τ L V) (rounded : Bool) (tau : τ) : What → V → Prop
  | .inter k, x => ∃ v, c.inter k tau = some v ∧ x = c.round v
  | .slice k rev, x => ∃ v, c.inter k tau = some v ∧ x = c.slice k rev (if rounded then c.round v else v)
  | .flow k rev, x => ∃ v, c.inter k tau = some v ∧ x = c.flow k rev (if rounded then c.round v else v)

/-- No files. -/
def empty : Disk L V := fun _ => none

/-- Disks that can be there after any number of runs with the same options from an empty disk,
each of them stopped between two writes or at the end. -/
inductive Stopped (opt : Opt) (c : Calc τ L V) (taus : List τ) : Disk L V → Prop
  | start : Stopped opt c taus empty
  | run {d : Disk L V} (ws : List (Write L V)) : Stopped opt c taus d → ws <+: (worker opt c taus d).log →
      Stopped opt c taus (ws.foldl write d)

end Verif.Laps
