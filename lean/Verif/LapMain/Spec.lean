import Verif.LapMain.Model
import Verif.Laps.Spec

/-! # What a user expects of the directory (C144, C145) -/

set_option linter.dupNamespace false

namespace Verif.LapMain

open Verif.CovMain (Text padded)
open Verif.Scripts (Kind File)
open Verif.Laps Verif.Glob

variable {τ V : Type}

/-- Ordinary names of the directories and of the network. -/
def Site.Plain (s : Site) : Prop := (∀ p ∈ s.dir, Ordinary p) ∧ Ordinary s.net

/-- A path that is not one of the matrix files of the network: another directory, or a name that
does not begin with the name of the network and `_tau_w`. -/
def Site.Foreign (s : Site) (f : Path) : Prop := ∀ r : Text, f ≠ s.dir ++ [s.net ++ "_tau_w".toList ++ r]

/-- The files of a slice. -/
def Site.view (s : Site) (fs : Fs V) (i : Nat) : Disk Label V := fun q => fs.get (s.file i q)

/-- The processes of all these slices have come to their end. -/
def Finished (p : Pool V) (jobs : List Nat) : Prop :=
  ∀ i ∈ jobs, match p.proc i with
    | some .done => True
    | _ => False

/-- Files that can be there after any number of sessions with the same options, each of them on any
slices, with the steps in any order, and stopped at any point.  At first there were only files that
do not belong to the network. -/
inductive History (s : Site) (prog : Nat → Prog (Label × What) V) : Fs V → Prop
  | start (fs : Fs V) : (∀ e ∈ fs, s.Foreign e.1) → History s prog fs
  | session {fs : Fs V} (order : List Nat) : History s prog fs → History s prog (Pool.run s prog fs order).files

end Verif.LapMain
