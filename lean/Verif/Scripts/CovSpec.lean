import Verif.Scripts.CovModel
import Verif.Flow.Spec

/-!
# Covariance integrals: vocabulary of the statements
-/

set_option linter.dupNamespace false

namespace Verif.Scripts

open Verif.Trans Verif.Flow Verif.Autocov

variable {K : Type} [Field K] [LinearOrder K] [IsStrictOrderedRing K]

/-- `T P⁻¹ Tᵀ`, where `P` holds the probabilities of the nodes after the transition `T` of a walker
that starts at a node chosen uniformly. -/
def meet (n : Nat) (T : Mat K) : Mat K := fun i j =>
  ∑ k ∈ Finset.range n,
    if after n (fun _ => 1 / (n : K)) T k = 0 then 0 else T i k * T j k / after n (fun _ => 1 / (n : K)) T k

/-- The integral of `T P⁻¹ Tᵀ` along a flow that goes through the given matrices, one after the
other, and stays the given time after each one. -/
def flowSum (n : Nat) (l : List (Mat K × K)) : Mat K := fun i j =>
  ((List.range l.length).map fun m => (l.getD m (eye, 0)).2 * meet n (prod n ((l.take (m + 1)).map (·.1))) i j).sum

/-- The matrices from interval `a` to interval `b`, in the direction of time. -/
def stepsOf (slices : Nat → Option (Slice K)) (reverse : Bool) (a b : Nat) : List (Mat K × K) :=
  if reverse then ((List.range' b (a - b)).flatMap fun k => ((slices k).map Slice.inter).getD []).reverse
  else (List.range' a (b - a)).flatMap fun k => ((slices k).map Slice.inter).getD []

/-- The time from interval `a` to interval `b`. -/
def spanOf (slices : Nat → Option (Slice K)) (reverse : Bool) (a b : Nat) : K :=
  ((if reverse then List.range' b (a - b) else List.range' a (b - a)).map fun k => ((slices k).map Slice.span).getD 0).sum

/-- The file of an end point is what it should be: the upper triangle of the integral and the time,
or no file at all if no time was integrated. -/
def Complete (cfg : Cfg K) (reverse : Bool) (kind : Kind) (start stop : Nat) : Option (File (Saved K)) → Prop
  | none => spanOf (cfg.slices kind) reverse start stop ≤ 0
  | some .torn => False
  | some (.whole v) => 0 < spanOf (cfg.slices kind) reverse start stop ∧
      v.time = spanOf (cfg.slices kind) reverse start stop ∧
      ∀ i < cfg.n, ∀ j < cfg.n,
        v.itpt i j = if i ≤ j then flowSum cfg.n (stepsOf (cfg.slices kind) reverse start stop) i j else 0

/-- The files of an interval belong together: stochastic inter-event matrices, and transition
matrices of the interval that are their products. -/
def Slice.Sound (n : Nat) (s : Slice K) : Prop :=
  (∀ e ∈ s.inter, Stoch n e.1) ∧ EqOn n s.forw (prod n (s.inter.map (·.1))) ∧
    EqOn n s.back (prod n (s.inter.reverse.map (·.1)))

/-- Arguments for which the script can work: increasing grid, a starting point on it, files for
all intervals before the last grid point, and a square root that is one. -/
structure Usable (cfg : Cfg K) (start : Nat) : Prop where
  grid : cfg.allInds.Pairwise (· < ·)
  start : cfg.allInds[cfg.indStart]? = some start
  files : ∀ kind, cfg.use kind = true → ∀ a ∈ cfg.allInds, ∀ k < a, ∃ s, cfg.slices kind k = some s ∧ s.Sound cfg.n
  sqrt : ∀ x : K, 0 ≤ x → cfg.sqrt x * cfg.sqrt x = x

/-- Disks that can be there after any number of runs from an empty disk, forward or backward, each
of them stopped between two writes or at the end.  The script never goes backward from the first
grid point, unless it is the only one. -/
inductive Crashes (cfg : Cfg K) : Disk K → Prop
  | start : Crashes cfg .empty
  | run {d : Disk K} (reverse : Bool) (ws : List (Write K)) : Crashes cfg d → (reverse = true → 0 < cfg.indStart) →
      ws <+: (worker cfg reverse d).log → Crashes cfg (ws.foldl Disk.write d)

end Verif.Scripts
