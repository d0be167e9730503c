import Verif.FlowStability.Lemmas
import Verif.StateTracking.Props

/-!
# Properties C06-C10: the `FlowStability` class

`x : Ext N F A` stands for whatever the network and clustering code computes or
raises; every theorem holds for every `x`.
-/

namespace Verif.FlowStability

open Verif.StateTracking

variable {N F A : Type}

/-! ## A concrete environment for the examples -/

/-- Networks are numbers of laplacian computations and the lists of rates for which
matrices exist; clusterings are numbers. -/
def demoExt : Ext (Nat × List (Option Rat)) Nat Nat where
  mkNet a := if a = 0 then .error (.ext false) else .ok (0, [])
  laplacians n _ _ _ := (none, (n.1 + 1, n.2))
  interT _ n lam _ := (none, (n.1, lam :: n.2))
  hasInterT n lam := n.2.contains lam
  mkFlow _ _ rev _ := .ok (if rev then 1 else 2)
  louvain f _ := (none, f + 10)

/-- A valid network for the examples. -/
def demoNet : Val (Nat × List (Option Rat)) Nat := .net (0, [])

/-- Constructed with a network, two time scales and direction `d`. -/
def demoMade (d : Int) : FWorld (Nat × List (Option Rat)) Nat :=
  match construct (some demoNet) none none (some (.items (.reusable [some 2, none])))
      (some (.int d)) with
  | .ok w => w
  | .error _ => blank

/-- All steps up to `set_flow_clustering`. -/
def demoSteps : List (FOp (Nat × List (Option Rat)) Nat Nat) :=
  [.setTemporalNetwork (some 1), .computeLaplacians 0, .computeInterT false none false 0,
   .setFlowClustering 0]

/-! ## C06 -/

/-- **C06** After construction with any arguments and any history of assignments and
method calls, successful or not: the state is at stage `k` or beyond exactly when the
recorded events show a completed run of step `k`, made when stage `k - 1` had been
reached in the same sense, with no later assignment of an input of an earlier stage
and no later run of an earlier step. -/
theorem C06_stage_iff_pipeline (x : Ext N F A) (net tStart tStop scale dir : Option (Val N F))
    (w : FWorld N F) (hw : construct net tStart tStop scale dir = .ok w)
    (ops : List (FOp N F A)) (k : Nat) (hk : k ≤ 5) :
    (k : Int) ≤ (runF x w ops).current ↔ Reached k (runF x w ops).log.reverse :=
  (inv_run x ops (inv_construct hw)).2.2 k hk

/-- **C06** The stage always is one of the six declared ones. -/
theorem C06_stage_range (x : Ext N F A) (net tStart tStop scale dir : Option (Val N F))
    (w : FWorld N F) (hw : construct net tStart tStop scale dir = .ok w)
    (ops : List (FOp N F A)) :
    0 ≤ (runF x w ops).current ∧ (runF x w ops).current ≤ 5 :=
  ⟨(inv_run x ops (inv_construct hw)).1, (inv_run x ops (inv_construct hw)).2.1⟩

/-- Hypotheses of C06 are met; the whole pipeline with direction 0 reaches stage 5, and
changing `t_start` afterwards brings it back to stage 1. -/
example :
    (construct (some demoNet) none none (some (.items (.reusable [some 2, none])))
      (some (.int 0))).isOk = true ∧
    (runF demoExt (demoMade 0) (demoSteps ++ [.findLouvain 0])).current = 5 ∧
    (runF demoExt (demoMade 0) (demoSteps ++ [.findLouvain 0, .assign "t_start" none])).current
      = 1 := by
  decide +kernel

/-! ## C07 -/

/-- The history never assigns the clustering property of the other direction by hand
and never asks for another time direction. -/
def OnlyDirection (d : Int) (other : Name) (ops : List (FOp N F A)) : Prop :=
  ∀ op ∈ ops, (∀ v, op ≠ .assign other v) ∧
    ∀ v, op = .assign "time_direction" v → v = some (.int d)

/-- **C07 (violated)** With time direction 1 or -1, whatever steps are run, with
whatever arguments and results, `find_louvain_clustering` is refused: it insists on
the clustering of the other direction, which `set_flow_clustering` does not create. -/
theorem C07_single_direction_refused (x : Ext N F A) (d : Int) (hd : d = 1 ∨ d = -1)
    (other : Name)
    (hother : other = if d = 1 then "flow_clustering_backward" else "flow_clustering_forward")
    (net tStart tStop scale : Option (Val N F)) (w : FWorld N F)
    (hw : construct net tStart tStop scale (some (.int d)) = .ok w)
    (ops : List (FOp N F A)) (hops : OnlyDirection d other ops) (kw : A) :
    Refused (call desc code "find_louvain_clustering" (findLouvain x kw) (runF x w ops)).1 := by
  subst hother
  have hne1 : otherProp d ≠ "temporal_network" := by rcases hd with rfl | rfl <;> decide
  have hne2 : otherProp d ≠ "time_scale" := by rcases hd with rfl | rfl <;> decide
  have hne3 : otherProp d ≠ "time_direction" := by rcases hd with rfl | rfl <;> decide
  have hstart : Only d (otherProp d) w := by
    unfold construct initOps at hw
    have hfl : ∀ (l : List (Name × Option (Val N F))) (w0 w1 : FWorld N F),
        (∀ a ∈ l, a.1 ≠ otherProp d) → assignAll w0 l = .ok w1 → w0.flags (otherProp d) = false →
        w1.flags (otherProp d) = false := by
      intro l
      induction l with
      | nil => intro w0 w1 _ h hf; simp [assignAll] at h; subst h; exact hf
      | cons a l ih =>
        intro w0 w1 hl h hf
        obtain ⟨p, v⟩ := a
        unfold assignAll at h
        have hp : p ≠ otherProp d := hl (p, v) (by simp)
        obtain ⟨n, hq⟩ := assignNamed_quiet desc code p v w0
        have : (assignNamed desc code p v w0).2.flags (otherProp d) = false := by
          rcases assignNamed_cases desc code p v w0 with ⟨s, ig, _, h'⟩ | ⟨_, h'⟩
          · rcases h' with ⟨e, o, _, h'⟩ | ⟨o, _, h'⟩
            · rw [h']; exact hf
            · rw [h']
              show (if otherProp d = p then _ else w0.flags (otherProp d)) = false
              rw [if_neg (Ne.symm hp)]; exact hf
          · rw [h']; exact hf
        cases hr : assignNamed desc code p v w0 with
        | mk r w2 =>
          rw [hr] at h this
          cases r with
          | none => exact ih w2 w1 (fun a ha => hl a (by simp [ha])) h this
          | some e => simp at h
    refine ⟨?_, hfl _ _ _ ?_ hw rfl⟩
    · -- the last assignment of the constructor stores the direction
      have hlast : ∀ (l : List (Name × Option (Val N F))) (w0 w1 : FWorld N F),
          assignAll w0 (l ++ [("time_direction", some (.int d))]) = .ok w1 →
          w1.obj.timeDirection = d := by
        intro l
        induction l with
        | nil =>
          intro w0 w1 h
          have hs : setter "time_direction" (some (.int d)) w0.obj =
              (none, { w0.obj with timeDirection := d }) := by
            rcases hd with rfl | rfl <;> simp [setter]
          simp only [List.nil_append, assignAll, assignNamed, find_dir, assign, code, hs] at h
          injection h with h
          subst h
          rfl
        | cons a l ih =>
          intro w0 w1 h
          obtain ⟨p, v⟩ := a
          simp only [List.cons_append] at h
          unfold assignAll at h
          cases hr : assignNamed desc code p v w0 with
          | mk r w2 =>
            rw [hr] at h
            cases r with
            | none => exact ih w2 w1 h
            | some e => simp at h
      exact hlast [("temporal_network", net), ("t_start", tStart), ("t_stop", tStop),
        ("time_scale", scale)] _ _ hw
    · intro a ha
      simp at ha
      rcases hd with rfl | rfl <;> rcases ha with rfl | rfl | rfl | rfl | rfl <;>
        simp [otherProp]
  have hrun : Only d (otherProp d) (runF x w ops) := by
    unfold runF run
    clear hw
    induction ops generalizing w with
    | nil => exact hstart
    | cons op ops ih =>
      refine ih _ (fun o ho => hops o (by simp [ho])) ?_
      have ho := hops op (by simp)
      cases op with
      | assign p v =>
        exact only_assign hd (fun h => ho.1 v (by rw [h]; rfl))
          (fun h => ho.2 v (by rw [h])) hstart
      | setTimeScale v l => exact only_assign hd (Ne.symm hne2) (fun h => absurd h (by decide)) hstart
      | setTemporalNetwork kw => exact only_call (pres_setNet d _ hd hne1 x kw) hstart
      | computeLaplacians kw => exact only_call (pres_lap d _ x kw) hstart
      | computeInterT lin t b kw => exact only_call (pres_inter d _ hd hne2 x lin t b kw) hstart
      | setFlowClustering kw =>
        exact only_call (pres_forTimeScales (pres_flowLoop hd x kw)) hstart
      | findLouvain kw => exact only_call (pres_forTimeScales (pres_louvainLoop d _ x kw)) hstart
  refine (C01_refused_changes_nothing desc desc_unique code _ 4 5 (by unfold IsStep desc; decide)
    _ _ ?_).1
  intro hready
  have hp : IsProp desc (otherProp d) 4 := by
    rcases hd with rfl | rfl
    · exact isProp_bwd
    · exact isProp_fwd
  have := hready.2 _ 4 hp (by omega)
  rw [hrun.2] at this
  simp at this

/-- Hypotheses of C07's negation are met by the full pipeline with direction 1, which
stops at stage 4; with direction 0 the same steps reach stage 5. -/
example : OnlyDirection 1 "flow_clustering_backward" demoSteps ∧
    (runF demoExt (demoMade 1) demoSteps).current = 4 ∧
    (call desc code "find_louvain_clustering" (findLouvain demoExt 0)
      (runF demoExt (demoMade 1) demoSteps)).1 = .refusedMissing ["flow_clustering_backward"] := by
  refine ⟨?_, by decide +kernel, by decide +kernel⟩
  intro op hop
  simp [demoSteps] at hop
  rcases hop with rfl | rfl | rfl | rfl <;> simp

/-- **C07 (what holds)** With time direction 0, at least one time scale and clustering
objects that can be created, a `set_flow_clustering` that returned makes
`find_louvain_clustering` run, and it returns if the clustering itself does not raise.
Missing for the full property: time directions 1 and -1, see
`C07_single_direction_refused`. -/
theorem C07_both_directions_partial (x : Ext N F A) (w : FWorld N F) (kw kw' : A)
    (hdir : w.obj.timeDirection = 0) (scales : List (Option Rat))
    (hts : w.obj.timeScale = .reusable scales) (hne : scales ≠ [])
    (hmk : ∀ n lam rev, ∃ f, x.mkFlow n lam rev kw = .ok f)
    (hl : ∀ f, (x.louvain f kw').1 = none)
    (w' : FWorld N F)
    (hret : call desc code "set_flow_clustering" (setFlowClustering x kw) w = (.returned, w')) :
    (call desc code "find_louvain_clustering" (findLouvain x kw') w').1 = .returned := by
  rcases call_cases desc desc_unique code "set_flow_clustering" 3 4 (by unfold IsStep desc; decide)
    (setFlowClustering x kw) w with ⟨_, h⟩ | ⟨_, _, h⟩ | ⟨hr, r, wb, hex, h⟩
  · rw [h] at hret; simp at hret
  · rw [h] at hret; simp at hret
  · rcases h with ⟨e, _, h⟩ | ⟨hrn, h⟩
    · rw [h] at hret; simp at hret
    · rw [h] at hret
      injection hret with _ hret
      subst hrn
      unfold setFlowClustering forTimeScales at hex
      simp only [exec, hts, PyIter.loop] at hex
      obtain ⟨h1, h2, h3, h4, h5⟩ := flowLoop_both x kw hmk scales [] _ wb (by exact hdir)
        (by intro t ht; simp at ht) (by simp) hex
      have hflags := h4 (by simpa using hne)
      have hready : Ready desc 4 w' := by
        subst hret
        refine ⟨Int.le_refl _, fun p s hp hs => ?_⟩
        have hold : s ≤ 3 → wb.flags p = true := fun hs3 => h5 p (hr.2 p s hp hs3)
        show wb.flags p = true
        rcases isProp_cases hp with ⟨rfl, rfl⟩ | ⟨rfl, rfl⟩ | ⟨rfl, rfl⟩ | ⟨rfl, rfl⟩ | ⟨rfl, rfl⟩ |
          ⟨rfl, rfl⟩ | ⟨rfl, rfl⟩
        · exact hold (by omega)
        · exact hold (by omega)
        · exact hold (by omega)
        · exact hold (by omega)
        · exact hold (by omega)
        · exact hflags.1
        · exact hflags.2
      rcases call_cases desc desc_unique code "find_louvain_clustering" 4 5
        (by unfold IsStep desc; decide) (findLouvain x kw') w' with ⟨hn, _⟩ | ⟨_, hn, _⟩ |
          ⟨_, r, wc, hexc, hc⟩
      · exact absurd hready.1 hn
      · exact absurd ((missingFor_nil_iff desc 4 (by decide) _).2 hready.2) hn
      · have hobj : w'.obj = wb.obj := by rw [← hret]
        have hres : (exec desc code (findLouvain x kw')
            { w' with log := .entered "find_louvain_clustering" :: w'.log }).1 = none := by
          unfold findLouvain forTimeScales
          simp only [exec, hobj, h3, PyIter.loop]
          refine louvainLoop_both x kw' hl scales _ h2 ?_
          exact fun t ht => h1 t (by simpa using ht)
        rw [hexc] at hres
        rcases hc with ⟨e, he, _⟩ | ⟨_, hc⟩
        · simp at hres; rw [hres] at he; simp at he
        · rw [hc]

/-- Hypotheses of the positive part of C07 are met. -/
example : (runF demoExt (demoMade 0) (demoSteps.take 3)).obj.timeDirection = 0 ∧
    (runF demoExt (demoMade 0) (demoSteps.take 3)).obj.timeScale = .reusable [some 2, none] ∧
    (∀ n lam rev, ∃ f, demoExt.mkFlow n lam rev 0 = .ok f) ∧
    (call desc code "set_flow_clustering" (setFlowClustering demoExt 0)
      (runF demoExt (demoMade 0) (demoSteps.take 3))).1 = .returned := by
  refine ⟨by decide +kernel, by decide +kernel, fun _ _ rev => ⟨_, rfl⟩, by decide +kernel⟩

/-! ## C08 -/

/-- **C08 (violated)** Whatever is given to the constructor and however often the
properties are assigned afterwards, `compute_laplacian_matrices` is refused. -/
theorem C08_assigned_network_refused (x : Ext N F A) (net tStart tStop scale dir : Option (Val N F))
    (w : FWorld N F) (hw : construct net tStart tStop scale dir = .ok w)
    (ops : List (FOp N F A)) (hops : ∀ op ∈ ops, op.IsAssign) (kw : A) :
    Refused (call desc code "compute_laplacian_matrices" (computeLaplacians x kw)
      (runF x w ops)).1 := by
  have h0 : w.current ≤ 0 :=
    assignAll_ind (fun w : FWorld N F => w.current ≤ 0) (fun p v w hw => by
      obtain ⟨n, hq⟩ := assignNamed_quiet desc code p v w
      exact Int.le_trans hq.le hw) _ (Int.le_refl 0 : (blank : FWorld N F).current ≤ 0) hw
  have h1 : (runF x w ops).current ≤ w.current := by
    refine C03_assignments_never_advance desc code w _ ?_
    intro op hop
    obtain ⟨fop, hf, rfl⟩ := List.mem_map.1 hop
    have := hops fop hf
    cases fop <;> trivial
  refine (C01_refused_changes_nothing desc desc_unique code _ 1 2 (by unfold IsStep desc; decide)
    _ _ ?_).1
  intro hr
  have := hr.1
  omega

/-- Hypotheses of C08's negation are met, with a valid network given twice. -/
example : (construct (some demoNet) none none none none).isOk = true ∧
    (FOp.IsAssign (.assign "temporal_network" (some demoNet) :
      FOp (Nat × List (Option Rat)) Nat Nat)) := ⟨by decide +kernel, trivial⟩

/-- **C08 (what holds)** After any history, `set_temporal_network` with arguments from
which a network can be built makes `compute_laplacian_matrices` run.  Missing for the
full property: the network given by constructor or assignment. -/
theorem C08_set_temporal_network_partial (x : Ext N F A)
    (net tStart tStop scale dir : Option (Val N F))
    (w : FWorld N F) (hw : construct net tStart tStop scale dir = .ok w)
    (ops : List (FOp N F A)) (a : A) (n : N) (ha : x.mkNet a = .ok n) (kw : A) :
    Executed (call desc code "compute_laplacian_matrices" (computeLaplacians x kw)
      (runF x w (ops ++ [.setTemporalNetwork (some a)]))).1 := by
  have hset : ∀ q s, desc.find q = some (.prop s false) → q ∈ ["t_start", "t_stop"] →
      w.flags q = true := by
    intro q s hq hmem
    have hind : ∀ (l : List (Name × Option (Val N F))) (w0 w1 : FWorld N F),
        assignAll w0 l = .ok w1 → (w0.flags q = true ∨ q ∈ l.map (·.1)) → w1.flags q = true := by
      intro l
      induction l with
      | nil =>
        intro w0 w1 h hor
        simp [assignAll] at h
        subst h
        simpa using hor
      | cons b l ih =>
        intro w0 w1 h hor
        obtain ⟨p, v⟩ := b
        unfold assignAll at h
        cases hr : assignNamed desc code p v w0 with
        | mk r w2 =>
          rw [hr] at h
          cases r with
          | some e => simp at h
          | none =>
            refine ih w2 w1 h ?_
            by_cases hqp : q = p
            · left
              subst hqp
              rcases assignNamed_cases desc code q v w0 with ⟨s', ig, hf, h'⟩ | ⟨hno, _⟩
              · rw [hq] at hf
                injection hf with hf
                injection hf with _ hf
                subst hf
                rcases h' with ⟨e, o, _, h'⟩ | ⟨o, _, h'⟩
                · rw [hr] at h'; simp at h'
                · rw [hr] at h'
                  injection h' with _ h'
                  subst h'
                  simp
              · exact absurd hq (hno s false)
            · rcases hor with hor | hor
              · left
                have := flag_stays hq p v w0 hor
                rw [hr] at this
                exact this
              · right
                simp [hqp] at hor
                simpa using hor
    refine hind _ _ _ hw (Or.inr ?_)
    simp at hmem
    rcases hmem with rfl | rfl <;> simp [initOps]
  have hinv := inv_run x ops (inv_construct hw)
  have hrun : runF x w (ops ++ [.setTemporalNetwork (some a)]) =
      (call desc code "set_temporal_network" (setTemporalNetwork x (some a)) (runF x w ops)).2 := by
    simp [runF, run, FOp.toOp, step]
  have hst1 := flag_stays_run find_start x ops w (hset _ _ find_start (by simp))
  have hst2 := flag_stays_run find_stop x ops w (hset _ _ find_stop (by simp))
  rw [hrun]
  rw [C01_step_executes_iff_ready desc desc_unique code _ 1 2 (by unfold IsStep desc; decide)]
  generalize hgen : runF x w ops = w1 at *
  have hready : Ready desc 0 w1 := by
    refine ⟨hinv.1, fun p s hp hs => ?_⟩
    have := isProp_cases hp
    omega
  rcases call_cases desc desc_unique code "set_temporal_network" 0 1 (by unfold IsStep desc; decide)
    (setTemporalNetwork x (some a)) w1 with ⟨hn, _⟩ | ⟨_, hn, _⟩ | ⟨_, r, wb, hex, h⟩
  · exact absurd hready.1 hn
  · exact absurd ((missingFor_nil_iff desc 0 (by decide) _).2 hready.2) hn
  · simp only [setTemporalNetwork, ha, exec, assignNamed, find_net, assign, code, setter, finish,
      if_true] at hex
    injection hex with hr hwb
    subst hr
    rcases h with ⟨e, he, _⟩ | ⟨_, h⟩
    · simp at he
    · rw [h]
      refine ⟨Int.le_refl _, fun p s hp hs => ?_⟩
      rw [← hwb]
      rcases isProp_cases hp with ⟨rfl, rfl⟩ | ⟨rfl, rfl⟩ | ⟨rfl, rfl⟩ | ⟨rfl, rfl⟩ | ⟨rfl, rfl⟩ |
          ⟨rfl, rfl⟩ | ⟨rfl, rfl⟩
      · simp
      · omega
      · simpa using hst1
      · simpa using hst2
      · omega
      · omega
      · omega

/-- Hypotheses of the positive part of C08 are met, on an instance built without a
network. -/
example : (construct none none none none none :
      Except Exc (FWorld (Nat × List (Option Rat)) Nat)).isOk = true ∧
    demoExt.mkNet 1 = .ok (0, []) := ⟨by decide +kernel, rfl⟩

/-! ## C09 -/

/-- The value is neither `None` nor a temporal network. -/
def NotNetwork (v : Option (Val N F)) : Prop := v ≠ none ∧ ∀ n, v ≠ some (.net n)

/-- **C09 (violated)** In every state, assigning a value that is neither `None` nor a
network raises nothing, stores no network, and yet marks the property as set. -/
theorem C09_rejected_value_counts_as_set (w : FWorld N F) (v : Option (Val N F))
    (hv : NotNetwork v) :
    (assignNamed desc code "temporal_network" v w).1 = none ∧
    (assignNamed desc code "temporal_network" v w).2.obj.temporalNetwork = none ∧
    (assignNamed desc code "temporal_network" v w).2.flags "temporal_network" = true := by
  cases v with
  | none => exact absurd rfl hv.1
  | some v =>
    cases v with
    | net n => exact absurd rfl (hv.2 n)
    | _ => simp [assignNamed, find_net, assign, code, setter]

/-- A value that is not a network exists. -/
example : NotNetwork (some .other : Option (Val Nat Nat)) := ⟨by simp, by simp⟩

/-- **C09 (what holds)** For `None` or a network the flag says whether a network is
stored. Missing for the full property: values of other types. -/
theorem C09_flag_matches_network_partial (w : FWorld N F) (v : Option (Val N F))
    (hv : ¬ NotNetwork v) :
    (assignNamed desc code "temporal_network" v w).2.flags "temporal_network" =
      (assignNamed desc code "temporal_network" v w).2.obj.temporalNetwork.isSome := by
  cases v with
  | none => simp [assignNamed, find_net, assign, code, setter]
  | some v =>
    cases v with
    | net n => simp [assignNamed, find_net, assign, code, setter]
    | _ => exact absurd ⟨by simp, by simp⟩ hv

/-- Both admissible kinds of values. -/
example : ¬ NotNetwork (none : Option (Val Nat Nat)) ∧
    ¬ NotNetwork (some (.net 3) : Option (Val Nat Nat)) :=
  ⟨fun h => h.1 rfl, fun h => h.2 3 rfl⟩

/-! ## C10 -/

theorem validScale_iff (t : Option Rat) : validScale t = true ↔ Positive t := by
  cases t with
  | none => simp [validScale, Positive]
  | some q => simp [validScale, Positive, Rat.not_le]

theorem storeTimeScale_fst (it : PyIter) (o : Obj N F) :
    (storeTimeScale it o).1 = none ↔ ∀ t ∈ it.loop.1, Positive t := by
  unfold storeTimeScale
  simp only
  split
  · rename_i h
    simp only [List.all_eq_true] at h
    simp only [true_iff]
    exact fun t ht => (validScale_iff t).1 (h t ht)
  · rename_i h
    simp only [reduceCtorEq, false_iff]
    intro hall
    exact h (List.all_eq_true.2 fun t ht => (validScale_iff t).2 (hall t ht))

/-- **C10** Assigning time scales is accepted exactly when the value is of a documented
kind and every entry is `None` or positive. -/
theorem C10_accepted_iff_positive (w : FWorld N F) (v : Option (Val N F)) :
    (assignNamed desc code "time_scale" v w).1 = none ↔
      ∃ l, scalesGiven v = some l ∧ ∀ t ∈ l, Positive t := by
  have key : (assignNamed desc code "time_scale" v w).1 = none ↔
      (setter "time_scale" v w.obj).1 = none := by
    simp only [assignNamed, find_scale, assign, code]
    cases hs : setter "time_scale" v w.obj with
    | mk r o => cases r <;> simp
  rw [key]
  cases v with
  | none => simp [setter, storeTimeScale_fst, scalesGiven, PyIter.loop]
  | some v =>
    cases v with
    | num q => simp [setter, storeTimeScale_fst, scalesGiven, PyIter.loop]
    | int i => simp [setter, storeTimeScale_fst, scalesGiven, PyIter.loop]
    | items l => cases l <;> simp [setter, storeTimeScale_fst, scalesGiven, PyIter.loop]
    | net n => simp [setter, scalesGiven]
    | generator l => simp [setter, scalesGiven]
    | flow ts f => simp [setter, scalesGiven]
    | other => simp [setter, scalesGiven]

/-- **C10** A rejected assignment leaves the instance exactly as it was. -/
theorem C10_rejected_keeps_everything (w : FWorld N F) (v : Option (Val N F)) (e : Exc)
    (hrej : (assignNamed desc code "time_scale" v w).1 = some e) :
    (assignNamed desc code "time_scale" v w).2 = w := by
  have hset : ∀ e, (setter "time_scale" v w.obj).1 = some e →
      (setter "time_scale" v w.obj).2 = w.obj := by
    have hst : ∀ it e, (storeTimeScale it w.obj).1 = some e →
        (storeTimeScale it w.obj).2 = w.obj := by
      intro it e h
      unfold storeTimeScale at *
      simp only at *
      split
      · rename_i h'; rw [if_pos h'] at h; simp at h
      · rfl
    intro e h
    cases v with
    | none => simp [setter] at h ⊢; exact hst _ _ h
    | some v =>
      cases v with
      | num q => simp [setter] at h ⊢; exact hst _ _ h
      | int i => simp [setter] at h ⊢; exact hst _ _ h
      | items l => simp [setter] at h ⊢; exact hst _ _ h
      | net n => simp [setter]
      | generator l => simp [setter]
      | flow ts f => simp [setter]
      | other => simp [setter]
  simp only [assignNamed, find_scale, assign, code] at hrej ⊢
  cases hs : setter "time_scale" v w.obj with
  | mk r o =>
    rw [hs] at hrej
    cases r with
    | none => simp at hrej
    | some e =>
      have := hset e (by rw [hs])
      rw [hs] at this
      simp only at this
      subst this
      rfl

/-- **C10 (violated for one-shot iterators)** After an accepted assignment of an
iterator, the time scales read back are empty, whatever the iterator held. -/
theorem C10_iterator_reads_empty (w : FWorld N F) (l : List (Option Rat)) (n : Nat)
    (hok : (assignNamed desc code "time_scale" (some (.items (.oneShot l))) w).1 = none) :
    readScales n (assignNamed desc code "time_scale" (some (.items (.oneShot l))) w).2.obj = [] := by
  have hread : ∀ (n : Nat) (o : Obj N F), o.timeScale = .oneShot [] → readScales n o = [] := by
    intro n
    induction n with
    | zero => intro o h; simp [readScales, h, PyIter.loop]
    | succ n ih => intro o h; exact ih _ (by simp [h, PyIter.loop])
  refine hread n _ ?_
  have hset : setter "time_scale" (some (.items (.oneShot l))) w.obj =
      storeTimeScale (.oneShot l) w.obj := by simp [setter]
  simp only [assignNamed, find_scale, assign, code, hset, storeTimeScale, PyIter.loop] at hok ⊢
  by_cases hall : l.all validScale = true
  · simp only [hall, if_true]
  · simp [hall] at hok

/-- **C10 (what holds)** After an accepted assignment of anything but a one-shot
iterator, every later read yields exactly the assigned values.  Missing for the full
property: one-shot iterators. -/
theorem C10_read_back_partial (w : FWorld N F) (v : Option (Val N F)) (l : List (Option Rat))
    (hl : scalesGiven v = some l) (hre : ∀ l', v ≠ some (.items (.oneShot l'))) (n : Nat)
    (hok : (assignNamed desc code "time_scale" v w).1 = none) :
    readScales n (assignNamed desc code "time_scale" v w).2.obj = l := by
  have hread : ∀ (n : Nat) (o : Obj N F), o.timeScale = .reusable l → readScales n o = l := by
    intro n
    induction n with
    | zero => intro o h; simp [readScales, h, PyIter.loop]
    | succ n ih => intro o h; exact ih _ (by simp [h, PyIter.loop])
  refine hread n _ ?_
  have hst : ∀ it, (storeTimeScale it w.obj).1 = none →
      (storeTimeScale it w.obj).2.timeScale = it.loop.2 := by
    intro it h
    unfold storeTimeScale at *
    simp only at *
    split
    · rfl
    · rename_i h'; rw [if_neg h'] at h; simp at h
  have key : (setter "time_scale" v w.obj).1 = none →
      (setter "time_scale" v w.obj).2.timeScale = .reusable l := by
    intro h
    cases v with
    | none =>
      simp [setter, scalesGiven] at h hl ⊢
      rw [hst _ h, ← hl]; rfl
    | some v =>
      cases v with
      | num q => simp [setter, scalesGiven] at h hl ⊢; rw [hst _ h, ← hl]; rfl
      | int i => simp [setter, scalesGiven] at h hl ⊢; rw [hst _ h, ← hl]; rfl
      | items it =>
        cases it with
        | reusable l' => simp [setter, scalesGiven] at h hl ⊢; rw [hst _ h, ← hl]; rfl
        | oneShot l' => exact absurd rfl (hre l')
      | net n => simp [scalesGiven] at hl
      | generator l => simp [scalesGiven] at hl
      | flow ts f => simp [scalesGiven] at hl
      | other => simp [scalesGiven] at hl
  simp only [assignNamed, find_scale, assign, code] at hok ⊢
  cases hs : setter "time_scale" v w.obj with
  | mk r o =>
    rw [hs] at hok key
    cases r with
    | none => exact key rfl
    | some e => simp at hok

/-- Hypotheses of C10 are met: a list with `None` and a positive number is accepted, a
list with a negative number is rejected, an iterator is accepted. -/
example :
    (assignNamed desc code "time_scale"
      (some (.items (.reusable [none, some 2]))) (demoMade 0)).1 = none ∧
    (assignNamed desc code "time_scale"
      (some (.items (.reusable [some 1, some (-1)]))) (demoMade 0)).1 = some .valueError ∧
    (assignNamed desc code "time_scale"
      (some (.items (.oneShot [some 1, some 2]))) (demoMade 0)).1 = none := by
  decide +kernel

end Verif.FlowStability
