import Verif.CommandLine.Props
import Verif.CovMain.Pool

/-!
# What the options of `run_cov_integrals` lead to: property C159
-/

set_option linter.dupNamespace false

namespace Verif.CommandLine

open Verif.CovMain

/-- `rev_time_list` (run_cov_integrals.py:164-170); nothing if the name is not assigned. -/
def directionOf (t : Text) : Option Direction :=
  if t = "both".toList then some .both
  else if t = "forward".toList then some .forward
  else if t = "backward".toList then some .backward
  else none

/-- `use_expm_transmats` and `use_lin_transmats` (run_cov_integrals.py:181-186). -/
def useMats (onlyExpm onlyLin : Bool) : Bool × Bool :=
  let lin := if onlyExpm then false else true
  let expm := if onlyLin then false else true
  (expm, lin)

/-- `compute_expm_transmat` and `compute_lin_transmat` of the other script, or an exception
(run_laplacians_transmats.py:179-180, 201-202). -/
def lapMats (notExpm notLin : Bool) : Option (Bool × Bool) :=
  let expm := !notExpm
  let lin := !notLin
  if lin = false ∧ expm = false then none else some (expm, lin)

/-- The list of tasks of `main` (run_cov_integrals.py:707-724), or a `NameError`. -/
def plan {τ : Type} (direction : Text) (fromStart fromFinish fromBoth : Bool) (len : Nat) (taus : List τ) : Option (List (CovMain.Task τ)) :=
  match directionOf direction with
  | some d => some (tasks ⟨d, fromStart, fromFinish, fromBoth⟩ len taus)
  | none =>
    if fromStart || fromFinish then some (tasks ⟨.both, fromStart, fromFinish, fromBoth⟩ len taus)
    else none

/-- The direction of a task is asked for. -/
def Asked (direction : Text) (reverse : Bool) : Prop :=
  direction = "both".toList ∨ (direction = "forward".toList ∧ reverse = false) ∨ (direction = "backward".toList ∧ reverse = true)

variable {τ : Type}

/-- **C159, partial.**  If the time direction is one of the three, and neither `--only_from_start` nor `--only_from_finish` is given, there is a
task in a direction of time if and only if the direction is asked for, provided that there is a time scale and the grid has an interval. -/
theorem C159_direction_partial {direction : Text} (hd : direction = "both".toList ∨ direction = "forward".toList ∨ direction = "backward".toList)
    (fromBoth : Bool) {len : Nat} (hlen : 2 ≤ len) {taus : List τ} (ht : taus ≠ []) :
    ∃ l, plan direction false false fromBoth len taus = some l ∧
      ∀ reverse, (∃ i tau, (i, tau, reverse) ∈ l) ↔ Asked direction reverse := by
  obtain ⟨tau, htau⟩ := List.exists_mem_of_ne_nil taus ht
  have hdir : ∃ d, directionOf direction = some d ∧ ∀ r, r ∈ d.list ↔ Asked direction r := by
    rcases hd with rfl | rfl | rfl
    · exact ⟨.both, by simp [directionOf], fun r => by cases r <;> simp [Direction.list, Asked]⟩
    · exact ⟨.forward, by simp [directionOf], fun r => by cases r <;> simp [Direction.list, Asked]⟩
    · exact ⟨.backward, by simp [directionOf], fun r => by cases r <;> simp [Direction.list, Asked]⟩
  obtain ⟨d, hd1, hd2⟩ := hdir
  refine ⟨tasks ⟨d, false, false, fromBoth⟩ len taus, by unfold plan; rw [hd1], fun reverse => ?_⟩
  rw [← hd2]
  unfold tasks
  simp only [Bool.false_eq_true, if_false, List.mem_flatMap]
  constructor
  · rintro ⟨i, tau', r, hr, hm⟩
    have : r = reverse := by
      cases r <;> cases fromBoth <;> simp at hm <;> simp [hm]
    exact this ▸ hr
  · intro hr
    cases reverse <;> cases fromBoth
    · refine ⟨0, tau, false, hr, ?_⟩
      simp only [Bool.false_eq_true, if_false, List.mem_flatMap, List.mem_map, List.mem_range]
      exact ⟨0, by omega, tau, htau, rfl⟩
    · exact ⟨0, tau, false, hr, by simpa using htau⟩
    · refine ⟨1, tau, true, hr, ?_⟩
      simp only [if_true, Bool.false_eq_true, if_false, List.mem_flatMap, List.mem_map, List.mem_range'_1]
      exact ⟨1, by omega, tau, htau, rfl⟩
    · exact ⟨len - 1, tau, true, hr, by simpa using htau⟩

/-- **C159, violated.**  With `--only_from_start` the tasks are forward in time whatever direction is asked for, also if `--only_from_finish` is
given too; with `--only_from_finish` alone they are backward. -/
theorem C159_start_violated (direction : Text) (fromFinish fromBoth : Bool) (len : Nat) (taus : List τ) :
    plan direction true fromFinish fromBoth len taus = some (taus.map fun tau => (0, tau, false)) ∧
    plan direction false true fromBoth len taus = some (taus.map fun tau => (len - 1, tau, true)) := by
  constructor
  · unfold plan
    cases directionOf direction <;> simp [tasks]
  · unfold plan
    cases directionOf direction <;> simp [tasks]

/-- **C159, violated** for other texts: a direction that is misspelt is not refused when the options are read.  It raises an exception in
`main`, or is ignored with `--only_from_start` and `--only_from_finish`. -/
theorem C159_misspelt_violated {direction : Text} (hb : direction ≠ "both".toList) (hf : direction ≠ "forward".toList)
    (hk : direction ≠ "backward".toList) (fromBoth : Bool) (len : Nat) (taus : List τ) :
    plan direction false false fromBoth len taus = none ∧
    (∀ fromFinish, (plan direction true fromFinish fromBoth len taus).isSome) ∧ (plan direction false true fromBoth len taus).isSome := by
  have : directionOf direction = none := by
    unfold directionOf
    rw [if_neg hb, if_neg hf, if_neg hk]
  refine ⟨?_, fun fromFinish => ?_, ?_⟩
  · unfold plan
    rw [this]
    rfl
  · rw [(C159_start_violated direction fromFinish fromBoth len taus).1]
    rfl
  · rw [(C159_start_violated direction true fromBoth len taus).2]
    rfl

/-- **C159, partial.**  With at most one of `--only_expm_transmats` and `--only_lin_transmats`, the matrices that are used are those
that are not excluded. -/
theorem C159_mats_partial (onlyExpm onlyLin : Bool) (h : ¬ (onlyExpm = true ∧ onlyLin = true)) :
    ((useMats onlyExpm onlyLin).1 = true ↔ onlyLin = false) ∧ ((useMats onlyExpm onlyLin).2 = true ↔ onlyExpm = false) ∧
      ((useMats onlyExpm onlyLin).1 = true ∨ (useMats onlyExpm onlyLin).2 = true) := by
  revert onlyExpm onlyLin
  decide

/-- **C159, violated**: with both options the script goes on and uses no matrices at all, while `run_laplacians_transmats` refuses the
corresponding options. -/
theorem C159_both_violated : useMats true true = (false, false) ∧ lapMats true true = none ∧
    ∀ notExpm notLin, ¬ (notExpm = true ∧ notLin = true) → lapMats notExpm notLin = some (!notExpm, !notLin) := by decide

example : plan "backward".toList false false false 3 [10, 20] = some [(1, 10, true), (1, 20, true), (2, 10, true), (2, 20, true)] := by
  decide

example : "backwards".toList ≠ "both".toList ∧ "backwards".toList ≠ "forward".toList ∧ "backwards".toList ≠ "backward".toList := by decide

end Verif.CommandLine
