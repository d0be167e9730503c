import Verif.FlowStability.Props

/-!
# C107: `help` and `lamda`
-/

set_option linter.unusedSectionVars false

namespace Verif.FlowStability

open Verif.StateTracking

variable {N F A : Type}

/-! ## Model -/

/-- `inverted_iterator` consumed to the end (helpers.py:11-18); the result is missing if
`1. / val` raises `ZeroDivisionError`. -/
def invertedIterator : List (Option Rat) → Option (List (Option Rat))
  | [] => some []
  | none :: l => (invertedIterator l).map (none :: ·)
  | some q :: l => if q = 0 then none else (invertedIterator l).map (some (1 / q) :: ·)

/-- What the loop over `fs.lamda` yields that comes after `n` other loops over
`fs.time_scale` or `fs.lamda` (flow_stability.py:359-375; `time_scale` is
`iter(self._time_scale)`, 285). -/
def readLamda : Nat → Obj N F → Option (List (Option Rat))
  | 0, o => invertedIterator o.timeScale.loop.1
  | k + 1, o => readLamda k { o with timeScale := o.timeScale.loop.2 }

/-- What `fs.help()` says (flow_stability.py:162-194): the parameters that need to be set
(`none`: the sentence that all required parameters are set), and the next step.  The fixed
parts of the text are left out. -/
structure HelpText where
  toSet : Option (List Name)
  nextStep : Option Name
deriving DecidableEq, Repr

/-- `fs.help()` (flow_stability.py:162-194): `if next_parameters`, `if next_method`. -/
def help (w : FWorld N F) : HelpText :=
  let r := next desc w
  { toSet := if r.1 = [] then none else some r.1
    nextStep := match r.2 with
      | .name m => some m
      | _ => none }

/-! ## Properties -/

/-- **C107** After construction with any arguments and any history, `help()` names a step;
it says that all required parameters are set exactly if a call of that step is not refused;
otherwise it lists exactly the parameters registered for a stage at or below the current one
that are not set. -/
theorem C107_help (x : Ext N F A) (net tStart tStop scale dir : Option (Val N F))
    (w0 : FWorld N F) (h0 : construct net tStart tStop scale dir = .ok w0) (ops : List (FOp N F A)) :
    let w := runF x w0 ops
    ∃ m, (help w).nextStep = some m ∧
      (∀ body, Executed (call desc code m body w).1 ↔ (help w).toSet = none) ∧
      (∀ l, (help w).toSet = some l → ∀ p, p ∈ l ↔
        (∃ s, IsProp desc p s ∧ s ≤ w.current) ∧ w.flags p = false) := by
  intro w
  have hr := C06_stage_range x net tStart tStop scale dir w0 h0 ops
  have hkey : ∀ (lo : Int) (m : Name) (hi : Int), IsStep desc m lo hi → lo ≤ w.current →
      desc.propertiesRequired lo = desc.propertiesRequired w.current → ∀ body : FBody N F,
      (Executed (call desc code m body w).1 ↔ (help w).toSet = none) := by
    intro lo m hi hst hle heq body
    have hfind := find_step desc_unique hst
    have hmiss : missingFor desc lo w.flags = missingParameters desc w := by
      unfold missingFor missingParameters
      rw [heq]
    have hset : (help w).toSet = none ↔ missingParameters desc w = [] := by
      unfold help next
      simp only
      split <;> simp_all
    rw [hset]
    have hlt : ¬ w.current < lo := by omega
    unfold call
    rw [hfind]
    simp only [hlt, if_false, hmiss]
    by_cases hm : missingParameters desc w = []
    · simp only [hm, ne_eq, not_true_eq_false, if_false, iff_true]
      generalize exec desc code body { w with log := .entered m :: w.log } = r
      obtain ⟨e, w'⟩ := r
      cases e <;> simp [Executed]
    · simp [hm, Executed]
  have hcases : w.current = 0 ∨ w.current = 1 ∨ w.current = 2 ∨ w.current = 3 ∨ w.current = 4
      ∨ w.current = 5 := by
    have h1 := hr.1
    have h2 := hr.2
    change 0 ≤ w.current at h1
    change w.current ≤ 5 at h2
    omega
  have hknown : Known desc w.current := by
    rcases hcases with h | h | h | h | h | h <;> rw [h] <;> left <;> decide
  have hlist : ∀ l, (help w).toSet = some l → ∀ p, p ∈ l ↔
      (∃ s, IsProp desc p s ∧ s ≤ w.current) ∧ w.flags p = false := by
    intro l hl p
    unfold help next at hl
    simp only at hl
    split at hl
    · simp at hl
    · simp only [Option.some.injEq] at hl
      subst hl
      exact missingParameters_mem desc w hknown p
  have hfin : ∀ (k lo : Int) (m : Name) (hi : Int), w.current = k → desc.nextMethod k = .name m →
      IsStep desc m lo hi → lo ≤ k → desc.propertiesRequired lo = desc.propertiesRequired k →
      ∃ m, (help w).nextStep = some m ∧
        (∀ body, Executed (call desc code m body w).1 ↔ (help w).toSet = none) ∧
        (∀ l, (help w).toSet = some l → ∀ p, p ∈ l ↔
          (∃ s, IsProp desc p s ∧ s ≤ w.current) ∧ w.flags p = false) := by
    intro k lo m hi hk hm hst hle heq
    refine ⟨m, ?_, hkey lo m hi hst (by rw [hk]; exact hle) (by rw [hk]; exact heq), hlist⟩
    unfold help next
    simp only [hk, hm]
  rcases hcases with h | h | h | h | h | h
  · exact hfin 0 0 "set_temporal_network" 1 h (by decide) (by unfold IsStep desc; decide) (by decide) rfl
  · exact hfin 1 1 "compute_laplacian_matrices" 2 h (by decide) (by unfold IsStep desc; decide) (by decide) rfl
  · exact hfin 2 2 "compute_inter_transition_matrices" 3 h (by decide) (by unfold IsStep desc; decide)
      (by decide) rfl
  · exact hfin 3 3 "set_flow_clustering" 4 h (by decide) (by unfold IsStep desc; decide) (by decide) rfl
  · exact hfin 4 4 "find_louvain_clustering" 5 h (by decide) (by unfold IsStep desc; decide) (by decide) rfl
  · exact hfin 5 4 "find_louvain_clustering" 5 h (by decide) (by unfold IsStep desc; decide) (by decide)
      (by decide)

/-- Hypotheses of C107 are met, with both kinds of answers: after the constructor the first
step can be run; after `set_flow_clustering` for the forward direction `help` asks for the
backward clustering (C07). -/
example :
    help (demoMade 1) = ⟨none, some "set_temporal_network"⟩ ∧
    help (runF demoExt (demoMade 1) demoSteps)
      = ⟨some ["flow_clustering_backward"], some "find_louvain_clustering"⟩ := by
  decide +kernel

theorem invertedIterator_spec (l : List (Option Rat)) (h : ∀ t ∈ l, Positive t) :
    ∃ r, invertedIterator l = some r ∧ r.length = l.length ∧
      ∀ k : Nat, (l[k]? = some none → r[k]? = some none) ∧
        ∀ q, l[k]? = some (some q) → ∃ lam, r[k]? = some (some lam) ∧ 0 < lam ∧ lam * q = 1 := by
  induction l with
  | nil => exact ⟨[], rfl, rfl, by simp⟩
  | cons t l ih =>
    obtain ⟨r, h1, h2, h3⟩ := ih fun t ht => h t (by simp [ht])
    cases t with
    | none =>
      refine ⟨none :: r, by simp [invertedIterator, h1], by simp [h2], ?_⟩
      intro k
      cases k with
      | zero => simp
      | succ k => simpa using h3 k
    | some q =>
      have hq : 0 < q := h (some q) (by simp) q rfl
      have hq0 : q ≠ 0 := Rat.ne_of_gt hq
      refine ⟨some (1 / q) :: r, by simp [invertedIterator, h1, hq0], by simp [h2], ?_⟩
      intro k
      cases k with
      | zero =>
        refine ⟨by simp, ?_⟩
        intro q' hq'
        simp only [List.getElem?_cons_zero, Option.some.injEq] at hq'
        subst hq'
        refine ⟨1 / q, by simp, ?_, ?_⟩
        · rw [Rat.div_def, Rat.one_mul]; exact Rat.inv_pos.2 hq
        · exact Rat.div_mul_cancel hq0
      | succ k => simpa using h3 k

/-- **C107** After an accepted assignment of time scales that is not a one-shot iterator,
`lamda` yields, at every reading, one value per time scale: `None` for `None`, and for a
number its positive inverse. -/
theorem C107_lamda (w : FWorld N F) (v : Option (Val N F)) (l : List (Option Rat))
    (hl : scalesGiven v = some l) (hre : ∀ l', v ≠ some (.items (.oneShot l'))) (n : Nat)
    (hok : (assignNamed desc code "time_scale" v w).1 = none) :
    ∃ r, readLamda n (assignNamed desc code "time_scale" v w).2.obj = some r ∧
      r.length = l.length ∧
      ∀ k : Nat, (l[k]? = some none → r[k]? = some none) ∧
        ∀ q, l[k]? = some (some q) → ∃ lam, r[k]? = some (some lam) ∧ 0 < lam ∧ lam * q = 1 := by
  have hrl : ∀ (n : Nat) (o : Obj N F), readLamda n o = invertedIterator (readScales n o) := by
    intro n
    induction n with
    | zero => intro o; rfl
    | succ n ih => intro o; exact ih _
  rw [hrl, C10_read_back_partial w v l hl hre n hok]
  apply invertedIterator_spec
  obtain ⟨l', h1, h2⟩ := (C10_accepted_iff_positive w v).1 hok
  rw [hl, Option.some.injEq] at h1
  subst h1
  exact h2

/-- Hypotheses are met: two time scales. -/
example : (assignNamed desc code "time_scale"
      (some (.items (.reusable [none, some 2]))) (demoMade 0)).1 = none ∧
    readLamda 3 (assignNamed desc code "time_scale"
      (some (.items (.reusable [none, some 2]))) (demoMade 0)).2.obj = some [none, some (1 / 2)] := by
  decide +kernel

theorem exec_interLoop (x : Ext N F A) (lin : Bool) (kw : A)
    (hx : ∀ n lam, (x.interT lin n lam kw).1 = none) (l r : List (Option Rat))
    (hr : invertedIterator l = some r) (w : FWorld N F) (n : N) (hn : w.obj.temporalNetwork = some n) :
    exec desc code (interLoop x lin false kw l) w = (none, { w with
      obj := { w.obj with
        temporalNetwork := some (r.foldl (fun n lam => (x.interT lin n lam kw).2) n) } }) := by
  induction l generalizing r w n with
  | nil =>
    simp only [invertedIterator, Option.some.injEq] at hr
    subst hr
    simp only [interLoop, exec, List.foldl_nil, ← hn]
  | cons ts l ih =>
    have hr' : ∃ r', invertedIterator l = some r' ∧ r = (ts.map fun q => 1 / q) :: r' := by
      cases ts with
      | none =>
        simp only [invertedIterator, Option.map_eq_some_iff] at hr
        obtain ⟨r', h1, h2⟩ := hr
        exact ⟨r', h1, h2.symm⟩
      | some q =>
        simp only [invertedIterator] at hr
        split at hr
        · simp at hr
        · rw [Option.map_eq_some_iff] at hr
          obtain ⟨r', h1, h2⟩ := hr
          exact ⟨r', h1, h2.symm⟩
    obtain ⟨r', h1, h2⟩ := hr'
    simp only [interLoop, Bool.false_eq_true, if_false, exec, hn, hx]
    rw [ih r' h1 _ (x.interT lin n (ts.map fun q => 1 / q) kw).2 rfl, h2]
    rfl

/-- **C107** `compute_inter_transition_matrices` asks the network for the matrices of exactly
the rates that `lamda` yields, in that order, as long as the network raises nothing. -/
theorem C107_rates (x : Ext N F A) (lin : Bool) (kw : A)
    (hx : ∀ n lam, (x.interT lin n lam kw).1 = none) (w : FWorld N F) (n : N)
    (hn : w.obj.temporalNetwork = some n) (r : List (Option Rat)) (hr : readLamda 0 w.obj = some r) :
    (exec desc code (computeInterT x lin none false kw) w).1 = none ∧
    (exec desc code (computeInterT x lin none false kw) w).2.obj.temporalNetwork
      = some (r.foldl (fun n lam => (x.interT lin n lam kw).2) n) := by
  obtain ⟨obj, current, flags, log⟩ := w
  obtain ⟨tn, t0, t1, scale, dir, fw, bw⟩ := obj
  simp only at hn
  subst hn
  have h := exec_interLoop x lin kw hx scale.loop.1 r hr
    ⟨⟨some n, t0, t1, scale.loop.2, dir, fw, bw⟩, current, flags, log⟩ n rfl
  exact ⟨congrArg Prod.fst h, congrArg (fun r => r.2.obj.temporalNetwork) h⟩

/-- Hypotheses are met by the demo network, which records the rates (newest first). -/
example : (∀ n lam, (demoExt.interT false n lam 0).1 = none) ∧
    (exec desc code (computeInterT demoExt false none false 0) (demoMade 0)).2.obj.temporalNetwork
      = some (0, [none, some (1 / 2)]) := by
  refine ⟨fun _ _ => rfl, ?_⟩
  decide +kernel

end Verif.FlowStability
