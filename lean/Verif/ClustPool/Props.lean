import Verif.ClustPool.Spec
import Verif.ClustMain.Props

/-! # C146: the pool of `run_clusterings` -/

set_option linter.unusedSectionVars false

namespace Verif.ClustPool

open Verif.CovMain (Text)
open Verif.ClustMain (resultName tmpName)
open Verif.Scripts.Cluster

variable {K : Type} [Field K] [LinearOrder K] [IsStrictOrderedRing K]

theorem resultName_inj {f g : Text} (h : resultName f = resultName g) : f = g := List.append_cancel_left h

theorem tmpName_inj {f g : Text} (h : tmpName f = tmpName g) : f = g := List.append_cancel_left h

theorem view_put (dir : Dir K) (f g : Text) (w : Write K) :
    view (put dir f w) g = if g = f then (view dir f).write w else view dir g := by
  cases w with
  | tmp v =>
    have hr : ∀ x, put dir f (.tmp v) (resultName x) = dir (resultName x) := fun x => by
      simp only [put]
      rw [if_neg (Verif.ClustMain.C139_result_tmp x f)]
    have ht : ∀ x, put dir f (.tmp v) (tmpName x) = if x = f then some (.tmp (.whole v)) else dir (tmpName x) := fun x => by
      by_cases hx : x = f
      · subst hx; rw [if_pos rfl]; exact if_pos rfl
      · rw [if_neg hx]; exact if_neg fun h => hx (tmpName_inj h)
    by_cases hg : g = f
    · subst hg
      rw [if_pos rfl]
      simp only [view, tmpOf, resOf, hr, ht, if_true, Disk.write]
    · rw [if_neg hg]
      simp only [view, tmpOf, resOf, hr, ht, hg, if_false]
  | res v =>
    have hr : ∀ x, put dir f (.res v) (tmpName x) = dir (tmpName x) := fun x => by
      simp only [put]
      rw [if_neg fun h => Verif.ClustMain.C139_result_tmp f x h.symm]
    have ht : ∀ x, put dir f (.res v) (resultName x) = if x = f then some (.res (.whole v)) else dir (resultName x) := fun x => by
      by_cases hx : x = f
      · subst hx; rw [if_pos rfl]; exact if_pos rfl
      · rw [if_neg hx]; exact if_neg fun h => hx (resultName_inj h)
    by_cases hg : g = f
    · subst hg
      rw [if_pos rfl]
      simp only [view, tmpOf, resOf, hr, ht, if_true, Disk.write]
    · rw [if_neg hg]
      simp only [view, tmpOf, resOf, hr, ht, hg, if_false]

/-- What is true at any time of a session: every process is where the worker alone would be after some
of its steps, and its two files are as the worker alone would have left them. -/
structure Inv (nvi : Clusters → Clusters → Nat → K) (cfg : Cfg) (r : Text → Rand K) (dir0 : Dir K) (p : Pool K) : Prop where
  idle : ∀ f, p.proc f = none → view p.dir f = view dir0 f
  free : ∀ f, p.proc f = some .free → view p.dir f = view dir0 f ∧ resOf dir0 f = none
  writing : ∀ f ws, p.proc f = some (.writing ws) → ∃ us, us ++ ws = (worker nvi cfg (r f) (view dir0 f)).log ∧
    view p.dir f = us.foldl Disk.write (view dir0 f)
  done : ∀ f, p.proc f = some .done → view p.dir f = (worker nvi cfg (r f) (view dir0 f)).log.foldl Disk.write (view dir0 f)
  rest : ∀ g, (∀ f, g ≠ resultName f ∧ g ≠ tmpName f) → p.dir g = dir0 g

theorem worker_log_done (nvi : Clusters → Clusters → Nat → K) (cfg : Cfg) (r : Rand K) (d : Disk K) (h : d.res ≠ none) :
    (worker nvi cfg r d).log = [] := by
  unfold worker
  cases hr : d.res with
  | none => exact absurd hr h
  | some f => rfl

theorem inv_step {nvi : Clusters → Clusters → Nat → K} {cfg : Cfg} {r : Text → Rand K} {dir0 : Dir K} {p : Pool K}
    (h : Inv nvi cfg r dir0 p) (f : Text) : Inv nvi cfg r dir0 (Pool.step nvi cfg r p f) := by
  have hview : ∀ d : Dir K, view d f = ⟨tmpOf d f, resOf d f⟩ := fun _ => rfl
  -- a step that leaves the directory as it is
  have keep : ∀ x : Stage K, (x = .free → view p.dir f = view dir0 f ∧ resOf dir0 f = none) →
      (∀ ws, x = .writing ws → ∃ us, us ++ ws = (worker nvi cfg (r f) (view dir0 f)).log ∧
        view p.dir f = us.foldl Disk.write (view dir0 f)) →
      (x = .done → view p.dir f = (worker nvi cfg (r f) (view dir0 f)).log.foldl Disk.write (view dir0 f)) →
      Inv nvi cfg r dir0 ⟨p.dir, fun g => if g = f then some x else p.proc g⟩ := by
    intro x h1 h2 h3
    refine ⟨fun g hg => ?_, fun g hg => ?_, fun g ws hg => ?_, fun g hg => ?_, h.rest⟩
    all_goals
      dsimp only at hg ⊢
      split at hg
    · cases hg
    · exact h.idle g hg
    · rename_i e; subst e; exact h1 (Option.some.inj hg)
    · exact h.free g hg
    · rename_i e; subst e; exact h2 ws (Option.some.inj hg)
    · exact h.writing g ws hg
    · rename_i e; subst e; exact h3 (Option.some.inj hg)
    · exact h.done g hg
  unfold Pool.step
  cases hp : p.proc f with
  | none =>
    dsimp only
    have hv := h.idle f hp
    cases hr : resOf p.dir f with
    | none =>
      refine keep _ (fun _ => ⟨hv, ?_⟩) (fun ws e => by cases e) (fun e => by cases e)
      rw [← hr]
      exact (congrArg Disk.res hv).symm
    | some v =>
      refine keep _ (fun e => by cases e) (fun ws e => by cases e) fun _ => ?_
      rw [worker_log_done]
      · exact hv
      · rw [← hv]
        show resOf p.dir f ≠ none
        rw [hr]
        simp
  | some x =>
    cases x with
    | free =>
      obtain ⟨hv, hr⟩ := h.free f hp
      refine keep _ (fun e => by cases e) (fun ws e => ?_) (fun e => by cases e)
      have e := Stage.writing.inj e
      refine ⟨[], ?_, hv⟩
      rw [List.nil_append, ← e]
      congr 2
      have e1 : tmpOf p.dir f = tmpOf dir0 f := congrArg Disk.tmp hv
      rw [e1, ← hr]
      rfl
    | done => exact h
    | writing ws =>
      obtain ⟨us, h1, h2⟩ := h.writing f ws hp
      cases ws with
      | nil =>
        refine keep _ (fun e => by cases e) (fun ws e => by cases e) fun _ => ?_
        rw [← h1, List.append_nil]
        exact h2
      | cons w ws =>
        refine ⟨fun g hg => ?_, fun g hg => ?_, fun g vs hg => ?_, fun g hg => ?_, fun g hg => ?_⟩
        all_goals dsimp only at hg ⊢
        · split at hg
          · cases hg
          · rename_i hgf
            rw [view_put, if_neg hgf]
            exact h.idle g hg
        · split at hg
          · cases hg
          · rename_i hgf
            rw [view_put, if_neg hgf]
            exact h.free g hg
        · split at hg
          · rename_i hgf
            subst hgf
            have e := Stage.writing.inj (Option.some.inj hg)
            subst e
            refine ⟨us ++ [w], by rw [← h1]; simp, ?_⟩
            rw [view_put, if_pos rfl, List.foldl_append, h2]
            rfl
          · rename_i hgf
            rw [view_put, if_neg hgf]
            exact h.writing g vs hg
        · split at hg
          · cases hg
          · rename_i hgf
            rw [view_put, if_neg hgf]
            exact h.done g hg
        · rw [← h.rest g hg]
          cases w with
          | tmp v => exact if_neg (hg f).2
          | res v => exact if_neg (hg f).1

theorem inv_run (nvi : Clusters → Clusters → Nat → K) (cfg : Cfg) (r : Text → Rand K) (dir : Dir K) (order : List Text) :
    Inv nvi cfg r dir (Pool.run nvi cfg r dir order) := by
  have : ∀ (l : List Text) (p : Pool K), Inv nvi cfg r dir p → Inv nvi cfg r dir (l.foldl (Pool.step nvi cfg r) p) := by
    intro l
    induction l with
    | nil => exact fun p h => h
    | cons f l ih => exact fun p h => ih _ (inv_step h f)
  exact this order _ ⟨fun f _ => rfl, fun f h => (by cases h), fun f ws h => (by cases h), fun f h => (by cases h), fun g _ => rfl⟩

/-- What is on disk at the end of a worker is what it wrote. -/
theorem worker_log (nvi : Clusters → Clusters → Nat → K) (cfg : Cfg) (r : Rand K) (d : Disk K) :
    (worker nvi cfg r d).disk = (worker nvi cfg r d).log.foldl Disk.write d := by
  unfold worker
  dsimp only
  repeat' split
  all_goals rfl

/-- At any time the files of an integral are those of the worker alone, stopped after some of its writes. -/
theorem session_view (nvi : Clusters → Clusters → Nat → K) (cfg : Cfg) (r : Text → Rand K) (dir : Dir K) (order : List Text) (f : Text) :
    ∃ ws, ws <+: (worker nvi cfg (r f) (view dir f)).log ∧
      view (Pool.run nvi cfg r dir order).dir f = ws.foldl Disk.write (view dir f) := by
  have h := inv_run nvi cfg r dir order
  cases hp : (Pool.run nvi cfg r dir order).proc f with
  | none => exact ⟨[], List.nil_prefix, h.idle f hp⟩
  | some x =>
    cases x with
    | free => exact ⟨[], List.nil_prefix, (h.free f hp).1⟩
    | writing ws =>
      obtain ⟨us, h1, h2⟩ := h.writing f ws hp
      exact ⟨us, ⟨ws, h1⟩, h2⟩
    | done => exact ⟨_, List.prefix_rfl, h.done f hp⟩

theorem history_crashes {nvi : Clusters → Clusters → Nat → K} {allowed : Cfg → Prop} {dir : Dir K} (h : History nvi allowed dir)
    (f : Text) : Crashes nvi allowed (view dir f) := by
  induction h with
  | start dir h =>
    have : view dir f = .empty := by
      simp [view, tmpOf, resOf, (h f).1, (h f).2, Disk.empty]
    rw [this]
    exact .start
  | @session dir cfg r order _ ha hv ih =>
    obtain ⟨ws, h1, h2⟩ := session_view nvi cfg r dir order f
    rw [h2]
    exact .run cfg (r f) ws ih ha (hv f) h1

theorem ended_view {nvi : Clusters → Clusters → Nat → K} {cfg : Cfg} {r : Text → Rand K} {dir : Dir K} {order jobs : List Text}
    (he : Ended (Pool.run nvi cfg r dir order) jobs) {f : Text} (hf : f ∈ jobs) :
    view (Pool.run nvi cfg r dir order).dir f = (worker nvi cfg (r f) (view dir f)).disk := by
  rw [worker_log]
  exact (inv_run nvi cfg r dir order).done f (he f hf)

/-- **C146**.  After any sessions that do not save intermediate clusterings, on any integrals, with the
steps of the processes in any order, and stopped at any point, a session that comes to its end leaves a
complete result for every integral that it treats and whose computations do not fail, whatever happens
to the other integrals. -/
theorem C146_complete_partial (nvi : Clusters → Clusters → Nat → K) {dir : Dir K}
    (h : History nvi (fun cfg => cfg.saveBefore = false) dir) {cfg : Cfg} {r : Text → Rand K} {order jobs : List Text}
    (he : Ended (Pool.run nvi cfg r dir order) jobs) {f : Text} (hf : f ∈ jobs) (hv : Valid cfg (r f)) (hh : Healthy cfg (r f)) :
    Finished nvi (view (Pool.run nvi cfg r dir order).dir f) := by
  rw [ended_view he hf]
  exact (C51_resumed_partial nvi (history_crashes h f) hv hh).2

/-- **C146**, results are kept.  A result that is there is never changed, by sessions with any options and
any random numbers, whether they end or not. -/
theorem C146_kept (nvi : Clusters → Clusters → Nat → K) (dir : Dir K) (f : Text) (h : dir (resultName f) ≠ none) (cfg : Cfg)
    (r : Text → Rand K) (order : List Text) :
    view (Pool.run nvi cfg r dir order).dir f = view dir f := by
  obtain ⟨ws, h1, h2⟩ := session_view nvi cfg r dir order f
  have hres : (view dir f).res ≠ none := by
    show resOf dir f ≠ none
    unfold resOf
    cases hd : dir (resultName f) with
    | none => exact absurd hd h
    | some x => cases x <;> simp
  rw [worker_log_done _ _ _ _ hres] at h1
  rw [h2, List.prefix_nil.1 h1]
  rfl

/-- **C146**, other files.  Integrals that are not treated keep their files, and files that are neither
results nor intermediate clusterings are not touched. -/
theorem C146_others (nvi : Clusters → Clusters → Nat → K) (dir : Dir K) (cfg : Cfg) (r : Text → Rand K) (order : List Text) :
    (∀ f ∉ order, view (Pool.run nvi cfg r dir order).dir f = view dir f) ∧
      ∀ g, (∀ f, g ≠ resultName f ∧ g ≠ tmpName f) → (Pool.run nvi cfg r dir order).dir g = dir g := by
  refine ⟨fun f hf => (inv_run nvi cfg r dir order).idle f ?_, (inv_run nvi cfg r dir order).rest⟩
  have : ∀ (l : List Text) (p : Pool K), f ∉ l → (l.foldl (Pool.step nvi cfg r) p).proc f = p.proc f := by
    intro l
    induction l with
    | nil => exact fun p _ => rfl
    | cons g l ih =>
      intro p hl
      rw [List.foldl_cons, ih _ (fun h => hl (by simp [h]))]
      have hfg : f ≠ g := fun h => hl (by simp [h])
      unfold Pool.step
      split <;> simp [hfg]
  exact this order _ hf

/-- **C146**, order.  Two sessions on the same directory with the same options and random numbers that come
to their end leave the same files for all integrals that both treat, whatever the order of their steps
and whatever else they treat. -/
theorem C146_any_order (nvi : Clusters → Clusters → Nat → K) {dir : Dir K} {cfg : Cfg} {r : Text → Rand K}
    {order order' jobs jobs' : List Text} (he : Ended (Pool.run nvi cfg r dir order) jobs)
    (he' : Ended (Pool.run nvi cfg r dir order') jobs') {f : Text} (hf : f ∈ jobs) (hf' : f ∈ jobs') :
    view (Pool.run nvi cfg r dir order).dir f = view (Pool.run nvi cfg r dir order').dir f :=
  (ended_view he hf).trans (ended_view he' hf').symm

/-! ## Sessions come to their end -/

/-- Steps that are left. -/
def left : Option (Stage K) → Nat
  | none => 5
  | some .free => 4
  | some (.writing ws) => ws.length + 1
  | some .done => 0

theorem worker_log_length (nvi : Clusters → Clusters → Nat → K) (cfg : Cfg) (r : Rand K) (d : Disk K) :
    (worker nvi cfg r d).log.length ≤ 2 := by
  unfold worker
  dsimp only
  repeat' split
  all_goals simp

theorem left_step (nvi : Clusters → Clusters → Nat → K) (cfg : Cfg) (r : Text → Rand K) (p : Pool K) (f g : Text) :
    left ((Pool.step nvi cfg r p g).proc f) ≤ left (p.proc f) - if g = f then 1 else 0 := by
  by_cases hg : g = f
  · subst hg
    rw [if_pos rfl]
    unfold Pool.step
    cases hp : p.proc g with
    | none =>
      cases resOf p.dir g <;> simp [left]
    | some x =>
      cases x with
      | free =>
        have := worker_log_length nvi cfg (r g) ⟨tmpOf p.dir g, none⟩
        simp only [if_true, left]
        omega
      | done => simp [left, hp]
      | writing ws => cases ws <;> simp [left]
  · rw [if_neg hg]
    have hfg : f ≠ g := fun h => hg h.symm
    unfold Pool.step
    split <;> simp [hfg]

/-- **C146**, end.  Five steps of every process are enough. -/
theorem C146_ends (nvi : Clusters → Clusters → Nat → K) (dir : Dir K) (cfg : Cfg) (r : Text → Rand K) (order jobs : List Text)
    (h : ∀ f ∈ jobs, 5 ≤ order.count f) : Ended (Pool.run nvi cfg r dir order) jobs := by
  intro f hf
  have key : ∀ (l : List Text) (p : Pool K), left ((l.foldl (Pool.step nvi cfg r) p).proc f) ≤ left (p.proc f) - l.count f := by
    intro l
    induction l with
    | nil => intro p; simp
    | cons g l ih =>
      intro p
      refine (ih _).trans ?_
      have := left_step nvi cfg r p f g
      rw [List.count_cons]
      by_cases hg : g = f
      · simp only [hg, if_true, beq_self_eq_true] at this ⊢
        omega
      · have hb : (g == f) = false := by simpa using hg
        simp only [hg, hb, if_false, Bool.false_eq_true] at this ⊢
        omega
  have h0 := key order ⟨dir, fun _ => none⟩
  have h5 := h f hf
  have : left ((Pool.run nvi cfg r dir order).proc f) = 0 := by
    unfold Pool.run
    simp only [left] at h0 ⊢
    omega
  cases hp : (Pool.run nvi cfg r dir order).proc f with
  | none => rw [hp] at this; cases this
  | some x =>
    rw [hp] at this
    cases x with
    | free => cases this
    | done => rfl
    | writing ws => simp [left] at this

/-! ## Intermediate clusterings -/

theorem worker_stuck (nvi : Clusters → Clusters → Nat → K) (cfg : Cfg) (r : Rand K) {d : Disk K} (hr : d.res = none) (ht : d.tmp ≠ none)
    (hc : cfg.computeClustering = true ∨ (cfg.computeStatic = true ∧ r.adjacency = true)) : (worker nvi cfg r d).log = [] := by
  unfold worker
  rw [hr]
  dsimp only
  cases r.nodes with
  | none => rfl
  | some n =>
    dsimp only
    rw [if_neg (by rcases hc with h | ⟨h1, h2⟩ <;> simp [*])]
    cases hd : d.tmp with
    | none => exact absurd hd ht
    | some x =>
      cases x with
      | torn => rfl
      | whole v =>
        dsimp only
        repeat' split
        all_goals rfl

/-- The directory after sessions with the given options, random numbers and orders. -/
def sessions (nvi : Clusters → Clusters → Nat → K) (l : List (Cfg × (Text → Rand K) × List Text)) (dir : Dir K) : Dir K :=
  l.foldl (fun d e => (Pool.run nvi e.1 e.2.1 d e.2.2).dir) dir

/-- **C146, violated with intermediate clusterings**.  If a session was stopped between the intermediate
clusterings of an integral and its result, no later sessions, with any options that ask for
clusterings, any random numbers and any order of steps, ever write a result for it. -/
theorem C146_stuck_violated (nvi : Clusters → Clusters → Nat → K) (dir : Dir K) (f : Text) (hr : dir (resultName f) = none)
    (ht : dir (tmpName f) ≠ none) (l : List (Cfg × (Text → Rand K) × List Text))
    (hc : ∀ e ∈ l, e.1.computeClustering = true ∨ (e.1.computeStatic = true ∧ (e.2.1 f).adjacency = true)) :
    (sessions nvi l dir) (resultName f) = none := by
  have hres : (view dir f).res = none := by
    show resOf dir f = none
    unfold resOf
    rw [hr]
  have htmp : (view dir f).tmp ≠ none := by
    show tmpOf dir f ≠ none
    unfold tmpOf
    cases hd : dir (tmpName f) with
    | none => exact absurd hd ht
    | some x => cases x <;> simp
  have key : ∀ (l : List (Cfg × (Text → Rand K) × List Text)) (d : Dir K), view d f = view dir f →
      (∀ e ∈ l, e.1.computeClustering = true ∨ (e.1.computeStatic = true ∧ (e.2.1 f).adjacency = true)) →
      view (sessions nvi l d) f = view dir f := by
    intro l
    induction l with
    | nil => exact fun d h _ => h
    | cons e l ih =>
      intro d hd hl
      refine ih _ ?_ fun x hx => hl x (by simp [hx])
      obtain ⟨ws, h1, h2⟩ := session_view nvi e.1 e.2.1 d e.2.2 f
      rw [hd] at h1 h2
      have hlog : (worker nvi e.1 (e.2.1 f) (view dir f)).log = [] := worker_stuck nvi e.1 (e.2.1 f) hres htmp (hl e (by simp))
      rw [hlog] at h1
      rw [h2, List.prefix_nil.1 h1]
      rfl
  have h := congrArg Disk.res (key l dir rfl hc)
  rw [hres] at h
  have h' : resOf (sessions nvi l dir) f = none := h
  unfold resOf at h'
  cases hd : sessions nvi l dir (resultName f) with
  | none => rfl
  | some x => rw [hd] at h'; cases x <;> cases h'

/-! ## Examples -/

section Examples

/-- The hypotheses of `C146_complete_partial`: a first session on one integral is stopped, a second one treats
two. -/
example : ∃ (dir : Dir ℚ) (order : List Text), History exNvi (fun cfg => cfg.saveBefore = false) dir ∧
    Ended (Pool.run exNvi (exCfg false) (fun _ => exRand) dir order) ["a".toList, "b".toList] ∧ Valid (exCfg false) exRand ∧
    Healthy (exCfg false) exRand := by
  refine ⟨(Pool.run exNvi (exCfg false) (fun _ => exRand) (fun _ => none) ["a".toList, "a".toList]).dir,
    List.replicate 5 "a".toList ++ List.replicate 5 "b".toList,
    .session _ _ _ (.start _ fun _ => ⟨rfl, rfl⟩) rfl fun _ => ex_valid false, C146_ends _ _ _ _ _ _ ?_, ex_valid false, ex_healthy false⟩
  intro f hf
  simp only [List.mem_cons, List.not_mem_nil, or_false] at hf
  rcases hf with rfl | rfl <;> decide

/-- … and of `C146_stuck_violated`: a session that saves intermediate clusterings, stopped after its third step. -/
theorem C146_reached_violated : ∃ dir : Dir ℚ, History exNvi (fun _ => True) dir ∧ dir (resultName "a".toList) = none ∧
    dir (tmpName "a".toList) ≠ none := by
  refine ⟨(Pool.run exNvi (exCfg true) (fun _ => exRand) (fun _ => none) (List.replicate 3 "a".toList)).dir,
    .session _ _ _ (.start _ fun _ => ⟨rfl, rfl⟩) trivial fun _ => ex_valid true, ?_, ?_⟩
  · rfl
  · intro h
    cases h

end Examples

end Verif.ClustPool
