import Verif.Scripts.Cov

/-!
# Model: the tasks of `run_cov_integrals` and the pool that runs them

`src/flowstab/scripts/run_cov_integrals.py:704-736` (`main`): a task for every starting point, time
scale and direction of time that is asked for, and a pool of processes that run the tasks.  The
worker of a task is that of `Verif/Scripts/CovModel.lean`, cut into its steps: the search for
existing files, then one step for every interval and kind, and one for every file that is saved.
The processes share the directory of the results; the model lets the steps of all tasks happen in any
order.  The names of the files of different time scales and starting points differ, so there is a
disk for each of them; forward and backward in time the names are alike, so these two tasks share a
disk.
-/

namespace Verif.CovMain

open Verif.Scripts

variable {K : Type} [Field K] [LinearOrder K] [IsStrictOrderedRing K]

/-- The step of an interval or of a file to save (run_cov_integrals.py:494-641, 644-672). -/
inductive Act
  | interval (kind : Kind) (k : Nat)
  | save (kind : Kind) (stop : Nat)

/-- The step is done. -/
def Act.run (cfg : Cfg K) (reverse : Bool) (r : Run K) : Act → Run K
  | .interval kind k => r.interval cfg reverse kind k
  | .save kind stop => r.save kind stop

/-- The steps of the loop over the end points (run_cov_integrals.py:480-679). -/
def acts (reverse : Bool) (kinds : List Kind) : Nat → List Nat → List Act
  | _, [] => []
  | from_, stop :: rest =>
    ((kRange reverse from_ stop).flatMap fun k => kinds.map fun kind => .interval kind k) ++
      kinds.map (fun kind => .save kind stop) ++ acts reverse kinds stop rest

/-- The beginning of `worker` (run_cov_integrals.py:307-479): the search for existing files.  The
result is the state of the worker and the steps that it has to do. -/
def begin (cfg : Cfg K) (reverse : Bool) (d : Disk K) : Run K × List Act :=
  let fail : CovErr → Run K × List Act := fun e => (⟨fun _ => .init, d, [], some e⟩, [])
  match cfg.allInds[cfg.indStart]? with
  | none => fail .index
  | some start =>
    match intStops cfg.allInds cfg.indStart cfg.onlyOne reverse with
    | .error e => fail e
    | .ok stops =>
      match [Kind.expm, Kind.lin].foldlM (resume cfg d reverse start)
          ⟨fun _ => .init, start, stops, fun _ => false, fun _ => 0⟩ with
      | .error e => fail e
      | .ok p =>
        let kinds := [Kind.expm, Kind.lin].filter fun k => cfg.use k && !p.all k
        if kinds.length = 2 ∧ 0 < p.found .expm ∧ 2 < p.found .lin then fail .notImplemented
        else (⟨p.st, d, [], none⟩, acts reverse kinds p.from_ p.stops)

/-- `--time_direction` -/
inductive Direction
  | both
  | forward
  | backward

/-- `rev_time_list` (run_cov_integrals.py:158-164). -/
def Direction.list : Direction → List Bool
  | .both => [false, true]
  | .forward => [false]
  | .backward => [true]

/-- The options about starting points (run_cov_integrals.py:116-139). -/
structure Starts where
  direction : Direction
  /-- `only_from_start` -/
  fromStart : Bool
  /-- `only_from_finish` -/
  fromFinish : Bool
  /-- `only_from_start_and_finish` -/
  fromBoth : Bool

/-- A task: index of the starting point, time scale, direction of time. -/
abbrev Task (τ : Type) := Nat × τ × Bool

variable {τ : Type}

/-- `ind_starts_tau_ws` for a grid of `len` points (run_cov_integrals.py:707-724). -/
def tasks (o : Starts) (len : Nat) (taus : List τ) : List (Task τ) :=
  if o.fromStart then taus.map fun tau => (0, tau, false)
  else if o.fromFinish then taus.map fun tau => (len - 1, tau, true)
  else o.direction.list.flatMap fun reverse =>
    if reverse then
      if o.fromBoth then taus.map fun tau => (len - 1, tau, reverse)
      else (List.range' 1 (len - 1)).flatMap fun i => taus.map fun tau => (i, tau, reverse)
    else if o.fromBoth then taus.map fun tau => (0, tau, reverse)
    else (List.range (len - 1)).flatMap fun i => taus.map fun tau => (i, tau, reverse)

/-- The configuration of a task. -/
def from' (cfg : Cfg K) (i : Nat) : Cfg K := { cfg with indStart := i }

/-- The files, and the tasks that have begun, with the steps that are left. -/
structure Pool (τ K : Type) where
  store : τ → Nat → Disk K
  proc : Task τ → Option (Run K × List Act)

variable [DecidableEq τ]

/-- The next step of a task. -/
def Pool.step (cfg : τ → Cfg K) (s : Pool τ K) (t : Task τ) : Pool τ K :=
  let put : Run K × List Act → Pool τ K := fun x =>
    ⟨fun tau i => if tau = t.2.1 ∧ i = t.1 then x.1.disk else s.store tau i, fun u => if u = t then some x else s.proc u⟩
  match s.proc t with
  | none => put (begin (from' (cfg t.2.1) t.1) t.2.2 (s.store t.2.1 t.1))
  | some (_, []) => s
  | some (r, a :: as) => put (a.run (from' (cfg t.2.1) t.1) t.2.2 { r with disk := s.store t.2.1 t.1 }, as)

/-- The steps of the tasks happen in the given order. -/
def Pool.run (cfg : τ → Cfg K) (files : τ → Nat → Disk K) (order : List (Task τ)) : Pool τ K :=
  order.foldl (Pool.step cfg) ⟨files, fun _ => none⟩

end Verif.CovMain
