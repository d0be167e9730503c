import Verif.Calls.Table
import Verif.Laps.Model

/-!
# The worker of `run_laplacians_transmats`, with its calls

The worker of one time slice (`src/flowstab/scripts/run_laplacians_transmats.py:280-554`) as in
`Verif.Laps.Model`, but with the calls of the library written out: a call that does not fit the
signature raises a `TypeError` before anything is computed.  The `TypeError`s of the Laplacians and
of the stationary distributions are caught (lines 371-378) and the worker goes on; those of a
waiting time end this waiting time (lines 545-552).  The static adjacency matrix (lines 293-306) is
written first.
-/

set_option linter.dupNamespace false

namespace Verif.Calls

open Verif.Scripts (Kind File)
open Verif.Laps (Opt What Calc Disk Run)

/-- The calls of a version of the script that compute matrices
(run_laplacians_transmats.py:300, 393-395, 418-421, 461-464, 501-503). -/
structure Prog where
  adj : Call
  inter : Kind → Call
  trans : Kind → Call

/-- The functions that are called. -/
def interFn : Kind → Fn
  | .expm => .inter
  | .lin => .linInter
/-- See `interFn`. -/
def transFn : Kind → Fn
  | .expm => .trans
  | .lin => .linTrans

/-- The call of a function in a list of calls (the first one). -/
def callOf (l : List Site) (f : Fn) : Call :=
  match l.find? fun s => s.fn == f with
  | some s => s.call
  | none => ⟨0, []⟩

/-- The script, read from its list of calls. -/
def Prog.ofCalls (l : List Site) : Prog := ⟨callOf l .staticAdj, fun k => callOf l (interFn k), fun k => callOf l (transFn k)⟩

/-- The script of the repository. -/
def pinned : Prog := .ofCalls lapsCalls

variable {τ L V : Type} [DecidableEq L]

/-- The inter-event matrices (run_laplacians_transmats.py:391-437): the `TypeError` of the call, or
what the script does with the result. -/
def interStep (p : Prog) (opt : Opt) (c : Calc τ L V) (tau : τ) (k : Kind) (r : Run L V) :
    Except (Run L V) (Run L V × Option V) :=
  if opt.use k = true ∧ accepted (sig (interFn k)) (p.inter k) = false then .error r
  else Laps.interStep opt c tau k r

/-- The product in one direction (run_laplacians_transmats.py:452-534): the product is computed when
there is no file yet. -/
def sliceStep (p : Prog) (opt : Opt) (c : Calc τ L V) (tau : τ) (k : Kind) (reverse : Bool)
    (v : Option V) (r : Run L V) : Except (Run L V) (Run L V) :=
  if v.isSome = true ∧ (r.disk (c.label tau, .slice k reverse)).isSome = false ∧
      accepted (sig (transFn k)) (p.trans k) = false then .error r
  else .ok (Laps.sliceStep opt c tau k reverse v r)

/-- The products of a waiting time, in the order of the script, until the first exception
(run_laplacians_transmats.py:441-534). -/
def slices (p : Prog) (opt : Opt) (c : Calc τ L V) (tau : τ) (m : Kind → Option V) :
    List (Kind × Bool) → Run L V → Run L V
  | [], r => r
  | (k, rev) :: l, r =>
    match sliceStep p opt c tau k rev (m k) r with
    | .error r => r
    | .ok r => slices p opt c tau m l r

/-- One waiting time (run_laplacians_transmats.py:382-552). -/
def tauStep (p : Prog) (opt : Opt) (c : Calc τ L V) (r : Run L V) (tau : τ) : Run L V :=
  match interStep p opt c tau .expm r with
  | .error r => r
  | .ok (r, e) =>
    match interStep p opt c tau .lin r with
    | .error r => r
    | .ok (r, l) =>
      if opt.slices then
        slices p opt c tau (fun k => match k with | .expm => e | .lin => l)
          [(.expm, false), (.lin, false), (.expm, true), (.lin, true)] r
      else r

/-- The matrix files of a slice (run_laplacians_transmats.py:309-552). -/
def matrices (p : Prog) (opt : Opt) (c : Calc τ L V) (taus : List τ) (d : Disk L V) : Run L V :=
  if Laps.allThere opt c taus d then ⟨d, []⟩ else taus.foldl (tauStep p opt c) ⟨d, []⟩

/-- The files of a slice: the static adjacency matrix and the matrices of the waiting times. -/
structure Files (L V : Type) where
  adj : Option (File V)
  disk : Disk L V

/-- The worker (run_laplacians_transmats.py:280-554) with `save_static_adjacencies` and the adjacency
matrix of the slice; `none`: a `TypeError` of line 300, which nothing catches. -/
def worker (p : Prog) (saveAdj : Bool) (A : V) (opt : Opt) (c : Calc τ L V) (taus : List τ)
    (d : Files L V) : Option (Files L V) :=
  if saveAdj = true ∧ d.adj.isSome = false then
    if accepted (sig .staticAdj) p.adj then
      some ⟨some (.whole A), (matrices p opt c taus d.disk).disk⟩
    else none
  else some ⟨d.adj, (matrices p opt c taus d.disk).disk⟩

end Verif.Calls
