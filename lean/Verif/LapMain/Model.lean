import Verif.Laps.Model
import Verif.Scripts.SliceModel
import Verif.Glob.Model
import Verif.Glob.Spec

/-!
# Model: the pool of `run_laplacians_transmats`

`src/flowstab/scripts/run_laplacians_transmats.py:558-567` (`main`): a pool of processes that treat
the time slices, all in one directory.  The worker of a slice (lines 280-554) is that of
`Verif/Laps/Model.lean`, cut into the steps in which it touches the directory: searches for files
(`glob`) and files that are written.  The steps of all processes, on any number of machines that share
the directory, happen in any order.  The searches are those of `Verif/Glob/Model.lean`, over all
files of the directory.

Simplified: a slice is treated by one process at a time; a file appears at once (see `C80_torn_violated`
for files that are cut off).
-/

set_option linter.dupNamespace false

namespace Verif.LapMain

open Verif.CovMain (Text padded)
open Verif.Scripts (Kind File fullBatch workList)
open Verif.Laps Verif.Glob

/-- What a process still has to do with the files: nothing, a search and then more, depending on
whether something was found, or a file to write and then more. -/
inductive Prog (Q V : Type)
  | done
  | ask (q : Q) (next : Bool → Prog Q V)
  | put (q : Q) (v : V) (next : Prog Q V)

section Worker

variable {τ L V : Type}

/-- The inter-event matrices of one kind (run_laplacians_transmats.py:391-412, 415-437); after an
exception the next waiting time follows (run_laplacians_transmats.py:546-551). -/
def interP (opt : Opt) (c : Calc τ L V) (tau : τ) (k : Kind) (fail : Prog (L × What) V)
    (next : Option V → Prog (L × What) V) : Prog (L × What) V :=
  if opt.use k = false then next none
  else
    match c.inter k tau with
    | none => fail
    | some v =>
      if opt.saveInter then
        .ask (c.label tau, .inter k) fun there =>
          if there then next (some v)
          else .put (c.label tau, .inter k) (c.round v) (next (some (if opt.inPlace then c.round v else v)))
      else next (some v)

/-- The product of one kind in one direction (run_laplacians_transmats.py:455-493, 496-534). -/
def sliceP (opt : Opt) (c : Calc τ L V) (tau : τ) (k : Kind) (reverse : Bool) (v : Option V)
    (next : Prog (L × What) V) : Prog (L × What) V :=
  match v with
  | none => next
  | some v =>
    .ask (c.label tau, .slice k reverse) fun there =>
      if there then next
      else if opt.flow then
        .put (c.label tau, .flow k reverse) (c.flow k reverse v) (.put (c.label tau, .slice k reverse) (c.slice k reverse v) next)
      else .put (c.label tau, .slice k reverse) (c.slice k reverse v) next

/-- One waiting time (run_laplacians_transmats.py:382-552). -/
def tauP (opt : Opt) (c : Calc τ L V) (tau : τ) (next : Prog (L × What) V) : Prog (L × What) V :=
  interP opt c tau .expm next fun e => interP opt c tau .lin next fun l =>
    if opt.slices then
      sliceP opt c tau .expm false e (sliceP opt c tau .lin false l (sliceP opt c tau .expm true e (sliceP opt c tau .lin true l next)))
    else next

/-- `all_lin_exists`, `all_expm_exists`, `all_inter_lin_exists`, `all_inter_expm_exists`. -/
structure Flags where
  lin : Bool
  expm : Bool
  interLin : Bool
  interExpm : Bool

/-- `not glob(a) or not glob(b)`: the second search only after the first one has found a file. -/
def both (a b : L × What) (next : Bool → Prog (L × What) V) : Prog (L × What) V :=
  .ask a fun x => if x then .ask b next else next false

/-- The search for existing files (run_laplacians_transmats.py:309-341). -/
def checkP (c : Calc τ L V) : List τ → (Flags → Prog (L × What) V) → Prog (L × What) V
  | [], next => next ⟨true, true, true, true⟩
  | tau :: r, next =>
    both (c.label tau, .slice .lin false) (c.label tau, .slice .lin true) fun l =>
      .ask (c.label tau, .inter .lin) fun il =>
        both (c.label tau, .slice .expm false) (c.label tau, .slice .expm true) fun e =>
          .ask (c.label tau, .inter .expm) fun ie =>
            checkP c r fun f => next ⟨l && f.lin, e && f.expm, il && f.interLin, ie && f.interExpm⟩

/-- The worker (run_laplacians_transmats.py:280-554). -/
def workerP (opt : Opt) (c : Calc τ L V) (taus : List τ) : Prog (L × What) V :=
  checkP c taus fun f =>
    if (f.interExpm && f.interLin && !opt.slices) || (f.expm && f.lin) then .done else taus.foldr (tauP opt c) .done

end Worker

/-! ## The directory -/

/-- A waiting time as it is written in names with `{tau_w:.3e}`: no underscore and nothing that is
special for `glob`. -/
def Label : Type := {l : Text // '_' ∉ l ∧ Ordinary l}

instance : DecidableEq Label := inferInstanceAs (DecidableEq {l : Text // _})

/-- Where the files are: the parts of `savedir`, `net_name`, and the ends of the names (`.pickle`, or
`.gz`). -/
structure Site where
  dir : List Text
  net : Text
  ext : What → Text

/-- The beginning of the name of a file of a slice (run_laplacians_transmats.py:290-291, 317-327). -/
def Site.stem (s : Site) (i : Nat) (q : Label × What) : Text :=
  s.net ++ "_tau_w".toList ++ (q.1.1 ++ "_int".toList ++ (padded 6 i ++ "_".toList ++ q.2.suffix))

/-- The file. -/
def Site.file (s : Site) (i : Nat) (q : Label × What) : Path := s.dir ++ [s.stem i q ++ s.ext q.2]

/-- All files, the last ones first. -/
abbrev Fs (V : Type) := List (Path × File V)

variable {τ V : Type}

/-- The content of a file. -/
def Fs.get (fs : Fs V) (f : Path) : Option (File V) := fs.lookup f

/-- `glob.glob(name + "*")` is not empty (run_laplacians_transmats.py:329-341, 400, 425, 458, 498). -/
def Site.found (s : Site) (fs : Fs V) (i : Nat) (q : Label × What) : Bool :=
  fs.any fun e => pathFits (s.dir ++ [s.stem i q ++ ['*']]) e.1

/-- The files, and the slices whose treatment has begun, with what is left to do. -/
structure Pool (V : Type) where
  files : Fs V
  proc : Nat → Option (Prog (Label × What) V)

/-- The next step of the process of a slice. -/
def Pool.step (s : Site) (prog : Nat → Prog (Label × What) V) (p : Pool V) (i : Nat) : Pool V :=
  let go : Prog (Label × What) V → Nat → Option (Prog (Label × What) V) := fun x j => if j = i then some x else p.proc j
  match p.proc i with
  | none => ⟨p.files, go (prog i)⟩
  | some .done => p
  | some (.ask q next) => ⟨p.files, go (next (s.found p.files i q))⟩
  | some (.put q v next) => ⟨(s.file i q, .whole v) :: p.files, go next⟩

/-- `main` on one or more machines (run_laplacians_transmats.py:558-567): the processes of the slices
make their steps in the given order. -/
def Pool.run (s : Site) (prog : Nat → Prog (Label × What) V) (files : Fs V) (order : List Nat) : Pool V :=
  order.foldl (Pool.step s prog) ⟨files, fun _ => none⟩

/-- The slices that `main` of a machine gives to its pool (run_laplacians_transmats.py:561-563). -/
def machineJobs {K : Type} [Field K] [LinearOrder K] [IsStrictOrderedRing K] (bounds : List K) (total : Nat) (skip : List Nat)
    (b : Nat) : List Nat :=
  ((workList (fullBatch bounds) total b skip).getD []).map (·.1)

end Verif.LapMain
