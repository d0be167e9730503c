import Verif.ClustMain.Model
import Verif.Scripts.ClusterModel

/-!
# Model: the pool of `run_clusterings`

`src/flowstab/scripts/run_clusterings.py:981-991` (`main`): a pool of processes, one for each integral
that was chosen, that all keep their results in one directory.  The worker (lines 648-979) is that of
`Verif/Scripts/ClusterModel.lean`, cut into the steps in which it touches the directory: it looks
whether there is a result, looks for intermediate clusterings, and writes its files.  The steps of all
processes happen in any order.

Simplified: what a process computes, with its random numbers, does not depend on the others (`Rand`,
one for each integral); a file appears at once.
-/

set_option linter.unusedSectionVars false

namespace Verif.ClustPool

open Verif.CovMain (Text)
open Verif.ClustMain (resultName tmpName)
open Verif.Scripts.Cluster

variable {K : Type} [Field K] [LinearOrder K] [IsStrictOrderedRing K]

/-- The content of a file. -/
inductive Item (K : Type)
  | tmp (v : File (Tmp K))
  | res (v : File (Res K))
  | other

/-- The directory `savedir`: the files with their names. -/
abbrev Dir (K : Type) := Text → Option (Item K)

/-- The file of intermediate clusterings of an integral as the worker finds it
(run_clusterings.py:713-717); a file that is something else cannot be used. -/
def tmpOf (dir : Dir K) (f : Text) : Option (File (Tmp K)) :=
  match dir (tmpName f) with
  | none => none
  | some (.tmp v) => some v
  | some _ => some .torn

/-- The file of the result (run_clusterings.py:654, 665). -/
def resOf (dir : Dir K) (f : Text) : Option (File (Res K)) :=
  match dir (resultName f) with
  | none => none
  | some (.res v) => some v
  | some _ => some .torn

/-- `pickle.dump` to the file of intermediate clusterings (run_clusterings.py:863-866) or of the result
(run_clusterings.py:969-970). -/
def put (dir : Dir K) (f : Text) : Write K → Dir K
  | .tmp v => fun g => if g = tmpName f then some (.tmp (.whole v)) else dir g
  | .res v => fun g => if g = resultName f then some (.res (.whole v)) else dir g

/-- How far the process of an integral is: it has found no result; it has computed and has these files to
write; it has ended. -/
inductive Stage (K : Type)
  | free
  | writing (ws : List (Write K))
  | done

/-- The directory and the integrals whose processes have begun. -/
structure Pool (K : Type) where
  dir : Dir K
  proc : Text → Option (Stage K)

/-- The next step of the process of an integral (run_clusterings.py:648-979). -/
def Pool.step (nvi : Clusters → Clusters → Nat → K) (cfg : Cfg) (r : Text → Rand K) (p : Pool K) (f : Text) : Pool K :=
  let go : Stage K → Text → Option (Stage K) := fun x g => if g = f then some x else p.proc g
  match p.proc f with
  | none => ⟨p.dir, go (match resOf p.dir f with | some _ => .done | none => .free)⟩
  | some .free => ⟨p.dir, go (.writing (worker nvi cfg (r f) ⟨tmpOf p.dir f, none⟩).log)⟩
  | some (.writing []) => ⟨p.dir, go .done⟩
  | some (.writing (w :: ws)) => ⟨put p.dir f w, go (.writing ws)⟩
  | some .done => p

/-- `main` (run_clusterings.py:981-991): the processes of the integrals make their steps in the given
order. -/
def Pool.run (nvi : Clusters → Clusters → Nat → K) (cfg : Cfg) (r : Text → Rand K) (dir : Dir K) (order : List Text) : Pool K :=
  order.foldl (Pool.step nvi cfg r) ⟨dir, fun _ => none⟩

end Verif.ClustPool
