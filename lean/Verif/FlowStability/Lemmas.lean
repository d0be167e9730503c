import Verif.FlowStability.Spec
import Verif.StateTracking.Lemmas

namespace Verif.FlowStability

open Verif.StateTracking

variable {N F A : Type}

theorem desc_unique : UniqueNames desc := by unfold UniqueNames desc; decide

theorem desc_known : StatesKnown desc := by unfold StatesKnown desc; decide

theorem isProp_unique {p : Name} {s s' : Int} (h : IsProp desc p s) (h' : IsProp desc p s') :
    s = s' := by
  obtain ⟨i, h⟩ := h
  obtain ⟨i', h'⟩ := h'
  have h1 := find_prop desc_unique h
  have h2 := find_prop desc_unique h'
  rw [h1] at h2
  injection h2 with h2
  injection h2

theorem isStep_unique {m : Name} {lo hi lo' hi' : Int} (h : IsStep desc m lo hi)
    (h' : IsStep desc m lo' hi') : lo = lo' ∧ hi = hi' := by
  have h1 := find_step desc_unique h
  have h2 := find_step desc_unique h'
  rw [h1] at h2
  injection h2 with h2
  injection h2 with h3 h4
  injection h3 with h3
  exact ⟨h3, h4⟩

/-! ### Reached -/

theorem reached_snoc {k : Nat} {tr : List (Event (Val N F))} {ev : Event (Val N F)}
    (h : Reached k tr) (hev : ¬ Undoes k ev) : Reached k (tr ++ [ev]) := by
  cases k with
  | zero => trivial
  | succ k =>
    obtain ⟨b, a, rfl, hb, ha⟩ := h
    refine ⟨b, a ++ [ev], by simp, hb, ?_⟩
    intro e he
    rcases List.mem_append.1 he with he | he
    · exact ha e he
    · rw [List.mem_singleton.1 he]; exact hev

theorem reached_append {k : Nat} {tr l : List (Event (Val N F))}
    (h : Reached k tr) (hl : ∀ ev ∈ l, ¬ Undoes k ev) : Reached k (tr ++ l) := by
  induction l generalizing tr with
  | nil => simpa using h
  | cons ev l ih =>
    have := ih (reached_snoc h (hl ev (by simp))) (fun e he => hl e (by simp [he]))
    simpa using this

theorem undoes_mono {j k : Nat} (hjk : j ≤ k) {ev : Event (Val N F)} (h : Undoes j ev) :
    Undoes k ev := by
  cases ev with
  | assigned p v => obtain ⟨s, h1, h2⟩ := h; exact ⟨s, h1, by omega⟩
  | entered m => exact h
  | completed m => obtain ⟨lo, hi, h1, h2⟩ := h; exact ⟨lo, hi, h1, by omega⟩

theorem isStep_stepOf {k : Nat} (h1 : 1 ≤ k) (h5 : k ≤ 5) :
    IsStep desc (stepOf k) ((k : Int) - 1) k := by
  have : k = 1 ∨ k = 2 ∨ k = 3 ∨ k = 4 ∨ k = 5 := by omega
  rcases this with rfl | rfl | rfl | rfl | rfl <;> (unfold IsStep desc stepOf; decide)

theorem isStep_cases {m : Name} {lo hi : Int} (h : IsStep desc m lo hi) :
    ∃ k : Nat, 1 ≤ k ∧ k ≤ 5 ∧ m = stepOf k ∧ lo = (k : Int) - 1 ∧ hi = k := by
  unfold IsStep desc at h
  simp at h
  rcases h with ⟨rfl, rfl, rfl⟩ | ⟨rfl, rfl, rfl⟩ | ⟨rfl, rfl, rfl⟩ | ⟨rfl, rfl, rfl⟩ |
    ⟨rfl, rfl, rfl⟩
  · exact ⟨1, by decide⟩
  · exact ⟨2, by decide⟩
  · exact ⟨3, by decide⟩
  · exact ⟨4, by decide⟩
  · exact ⟨5, by decide⟩

theorem reached_down {k : Nat} (h5 : k + 1 ≤ 5) {tr : List (Event (Val N F))}
    (h : Reached (k + 1) tr) : Reached k tr := by
  obtain ⟨b, a, rfl, hb, ha⟩ := h
  refine reached_append hb ?_
  intro ev hev
  rcases List.mem_cons.1 hev with rfl | hev
  · rintro ⟨lo, hi, h1, h2⟩
    have := isStep_unique h1 (isStep_stepOf (k := k + 1) (by omega) h5)
    omega
  · exact fun hu => ha ev hev (undoes_mono (by omega) hu)

theorem reached_le {j k : Nat} (hjk : j ≤ k) (h5 : k ≤ 5) {tr : List (Event (Val N F))}
    (h : Reached k tr) : Reached j tr := by
  induction k with
  | zero => have : j = 0 := by omega
            subst this; exact h
  | succ k ih =>
    by_cases hj : j = k + 1
    · subst hj; exact h
    · exact ih (by omega) (by omega) (reached_down h5 h)

/-! ### bodies do not assign anything of an earlier stage -/

/-- Every assignment in the body is to a property of stage at least `lo`. -/
def Safe (lo : Int) : FBody N F → Prop
  | .ret => True
  | .raise _ => True
  | .read k => ∀ o, Safe lo (k o)
  | .update _ k => Safe lo k
  | .assign p _ k => (∀ s, IsProp desc p s → lo ≤ s) ∧ ∀ e, Safe lo (k e)

theorem stage_ge {p : Name} {t lo : Int} (ht : IsProp desc p t) (h : lo ≤ t) :
    ∀ s, IsProp desc p s → lo ≤ s := fun s hs => by
  have := isProp_unique ht hs
  omega

theorem isProp_net : IsProp desc "temporal_network" 1 := ⟨true, by decide⟩
theorem isProp_start : IsProp desc "t_start" 1 := ⟨false, by decide⟩
theorem isProp_stop : IsProp desc "t_stop" 1 := ⟨false, by decide⟩
theorem isProp_scale : IsProp desc "time_scale" 2 := ⟨true, by decide⟩
theorem isProp_dir : IsProp desc "time_direction" 3 := ⟨true, by decide⟩
theorem isProp_fwd : IsProp desc "flow_clustering_forward" 4 := ⟨true, by decide⟩
theorem isProp_bwd : IsProp desc "flow_clustering_backward" 4 := ⟨true, by decide⟩

theorem isProp_cases {p : Name} {s : Int} (h : IsProp desc p s) :
    (p = "temporal_network" ∧ s = 1) ∨ (p = "time_scale" ∧ s = 2) ∨ (p = "t_start" ∧ s = 1) ∨
    (p = "t_stop" ∧ s = 1) ∨ (p = "time_direction" ∧ s = 3) ∨
    (p = "flow_clustering_forward" ∧ s = 4) ∨ (p = "flow_clustering_backward" ∧ s = 4) := by
  obtain ⟨ig, h⟩ := h
  unfold desc at h
  simp at h
  grind

theorem safe_finish (lo : Int) (e : Option Exc) : Safe lo (finish e : FBody N F) := by
  cases e <;> trivial

theorem safe_setNet (x : Ext N F A) (kw : Option A) : Safe 0 (setTemporalNetwork x kw) := by
  unfold setTemporalNetwork
  cases kw with
  | none => exact ⟨stage_ge isProp_net (by omega), fun e => safe_finish _ e⟩
  | some a =>
    simp only
    cases x.mkNet a with
    | error e => trivial
    | ok n => exact ⟨stage_ge isProp_net (by omega), fun e => safe_finish _ e⟩

theorem safe_lap (x : Ext N F A) (kw : A) : Safe 1 (computeLaplacians x kw) := by
  intro o
  dsimp only
  cases o.temporalNetwork with
  | none => trivial
  | some n => exact safe_finish _ _

theorem safe_interLoop (x : Ext N F A) (lin bad : Bool) (kw : A) (l : List (Option Rat)) :
    Safe 2 (interLoop x lin bad kw l) := by
  induction l with
  | nil => trivial
  | cons ts rest ih =>
    unfold interLoop
    cases bad with
    | true => trivial
    | false =>
      intro o
      dsimp only
      cases o.temporalNetwork with
      | none => trivial
      | some n =>
        dsimp only
        unfold Safe
        cases (x.interT lin n (ts.map fun q => 1 / q) kw).1 with
        | none => exact ih
        | some e => trivial

theorem safe_forTimeScales (lo : Int) (k : List (Option Rat) → FBody N F)
    (h : ∀ l, Safe lo (k l)) : Safe lo (forTimeScales k) := fun _ => h _

theorem safe_inter (x : Ext N F A) (lin : Bool) (t : Option (Option (Val N F))) (b : Bool)
    (kw : A) : Safe 2 (computeInterT x lin t b kw) := by
  intro o
  dsimp only
  cases o.temporalNetwork with
  | none => trivial
  | some n =>
    simp only
    match t with
    | none =>
      simp only
      cases b with
      | true => trivial
      | false => exact safe_forTimeScales _ _ (safe_interLoop x lin false kw)
    | some none => exact safe_forTimeScales _ _ (safe_interLoop x lin true kw)
    | some (some v) =>
      refine ⟨stage_ge isProp_scale (by omega), fun e => ?_⟩
      cases e with
      | none => exact safe_forTimeScales _ _ (safe_interLoop x lin true kw)
      | some e => trivial

theorem safe_tryFlow (p : Name) (hp : IsProp desc p 4) (m : Except Exc F) (ts : Option Rat)
    (r : Bool) (k : FBody N F) (hk : Safe 3 k) : Safe 3 (tryFlow p m ts r k) := by
  unfold tryFlow
  cases m with
  | error e => simp only; split <;> first | exact hk | trivial
  | ok f =>
    refine ⟨stage_ge hp (by omega), fun e => ?_⟩
    cases e with
    | none => exact hk
    | some e => simp only; split <;> first | exact hk | trivial

theorem safe_flowLoop (x : Ext N F A) (kw : A) (l : List (Option Rat)) :
    Safe 3 (flowLoop x kw l) := by
  induction l with
  | nil => trivial
  | cons ts rest ih =>
    intro o
    dsimp only
    cases o.temporalNetwork with
    | none => trivial
    | some n =>
      simp only
      split
      · have hf : Safe 3 (Body.read fun o : Obj N F =>
            if 0 ≤ o.timeDirection then
              tryFlow "flow_clustering_forward"
                (x.mkFlow n (ts.map fun q => 1 / q) false kw) ts false (flowLoop x kw rest)
            else flowLoop x kw rest) := by
          intro o
          dsimp only
          split
          · exact safe_tryFlow _ isProp_fwd _ _ _ _ ih
          · exact ih
        split
        · exact safe_tryFlow _ isProp_bwd _ _ _ _ hf
        · exact hf
      · trivial

theorem safe_setFlow (x : Ext N F A) (kw : A) : Safe 3 (setFlowClustering x kw) :=
  safe_forTimeScales _ _ (safe_flowLoop x kw)

theorem safe_louvainOn (lo : Int) (x : Ext N F A) (kw : A) (found : Option (Option F))
    (store : F → Obj N F → Obj N F) (k : FBody N F) (hk : Safe lo k) :
    Safe lo (louvainOn x kw found store k) := by
  unfold louvainOn
  match found with
  | none => trivial
  | some none => trivial
  | some (some f) =>
    show Safe lo (Body.update _ _)
    unfold Safe
    cases (x.louvain f kw).1 with
    | none => exact hk
    | some e => trivial

theorem safe_louvainLoop (lo : Int) (x : Ext N F A) (kw : A) (l : List (Option Rat)) :
    Safe lo (louvainLoop x kw l) := by
  induction l with
  | nil => trivial
  | cons ts rest ih =>
    have hf : Safe lo (Body.read fun o : Obj N F =>
        if 0 ≤ o.timeDirection then
          louvainOn x kw (o.forward ts)
            (fun f o => { o with forward := fun k => if k = ts then some (some f) else o.forward k })
            (louvainLoop x kw rest)
        else louvainLoop x kw rest) := by
      intro o
      dsimp only
      split
      · exact safe_louvainOn _ _ _ _ _ _ ih
      · exact ih
    intro o
    simp only
    split
    · exact safe_louvainOn _ _ _ _ _ _ hf
    · exact hf

theorem safe_louvain (lo : Int) (x : Ext N F A) (kw : A) : Safe lo (findLouvain x kw) :=
  safe_forTimeScales _ _ (safe_louvainLoop lo x kw)

/-! ### the invariant behind C06 -/

/-- State and events agree. -/
def Inv (w : FWorld N F) : Prop :=
  0 ≤ w.current ∧ w.current ≤ 5 ∧
    ∀ k : Nat, k ≤ 5 → ((k : Int) ≤ w.current ↔ Reached k w.log.reverse)

theorem inv_obj {w : FWorld N F} (h : Inv w) (o : Obj N F) : Inv { w with obj := o } := h

theorem not_reached_nil {k : Nat} (h : 1 ≤ k) : ¬ Reached k ([] : List (Event (Val N F))) := by
  cases k with
  | zero => omega
  | succ k => rintro ⟨b, a, h, _⟩; simp at h

theorem reached_snoc_iff_quiet {k : Nat} {tr : List (Event (Val N F))} {ev : Event (Val N F)}
    (hev : ∀ m, ev ≠ .completed m) : Reached k (tr ++ [ev]) ↔ k = 0 ∨ (Reached k tr ∧ ¬ Undoes k ev) := by
  cases k with
  | zero => simp [Reached]
  | succ k =>
    constructor
    · rintro ⟨b, a, h, hb, ha⟩
      right
      rcases List.eq_nil_or_concat a with rfl | ⟨a', e, rfl⟩
      · exfalso
        have := congrArg List.getLast? h
        simp at this
        exact hev _ this
      · have h' : tr ++ [ev] = (b ++ .completed (stepOf (k + 1)) :: a') ++ [e] := by
          rw [h]; simp
        obtain ⟨h1, h2⟩ := List.append_inj' h' rfl
        simp at h2
        subst h2
        exact ⟨⟨b, a', h1, hb, fun e he => ha e (by simp [he])⟩, ha ev (by simp)⟩
    · rintro (h | ⟨h, hu⟩)
      · omega
      · exact reached_snoc h hu

theorem inv_assign (p : Name) (v : Option (Val N F)) {w : FWorld N F} (h : Inv w) :
    Inv (assignNamed desc code p v w).2 := by
  rcases assignNamed_cases desc code p v w with ⟨s, ig, hf, h'⟩ | ⟨_, h'⟩
  · rcases h' with ⟨e, o, _, h'⟩ | ⟨o, _, h'⟩
    · rw [h']; exact h
    · rw [h']
      have hp : IsProp desc p s := ⟨ig, find_mem hf⟩
      have hs : 1 ≤ s := by have := isProp_cases hp; omega
      refine ⟨?_, ?_, ?_⟩
      · show 0 ≤ min w.current s
        have := h.1
        omega
      · show min w.current s ≤ 5
        have := h.2.1
        omega
      · intro k hk
        show (k : Int) ≤ min w.current s ↔ Reached k ((Event.assigned p v :: w.log).reverse)
        rw [List.reverse_cons, reached_snoc_iff_quiet (by simp), ← h.2.2 k hk]
        constructor
        · intro hle
          right
          refine ⟨by omega, ?_⟩
          rintro ⟨s', h1, h2⟩
          have := isProp_unique hp h1
          omega
        · rintro (hk0 | ⟨h1, h2⟩)
          · have := h.1; omega
          · have : ¬ (s < k) := fun hlt => h2 ⟨s, hp, hlt⟩
            omega
  · rw [h']; exact h

theorem inv_exec (b : FBody N F) {w : FWorld N F} (h : Inv w) : Inv (exec desc code b w).2 := by
  induction b generalizing w with
  | ret => exact h
  | raise e => exact h
  | read k ih => exact ih _ h
  | update f k ih => exact ih (inv_obj h _)
  | assign p v k ih => exact ih _ (inv_assign p v h)

theorem exec_ge (lo : Int) (b : FBody N F) {w : FWorld N F} (hs : Safe lo b)
    (h : lo ≤ w.current) : lo ≤ (exec desc code b w).2.current := by
  induction b generalizing w with
  | ret => exact h
  | raise e => exact h
  | read k ih => exact ih _ (hs _) h
  | update f k ih => exact ih hs h
  | assign p v k ih =>
    refine ih _ (hs.2 _) ?_
    rcases assignNamed_cases desc code p v w with ⟨s, ig, hf, h'⟩ | ⟨_, h'⟩
    · rcases h' with ⟨e, o, _, h'⟩ | ⟨o, _, h'⟩
      · rw [h']; exact h
      · rw [h']
        have := hs.1 s ⟨ig, find_mem hf⟩
        show lo ≤ min w.current s
        omega
    · rw [h']; exact h

theorem reached_snoc_completed {k j : Nat} (h1 : 1 ≤ k) (h5 : k ≤ 5)
    {tr : List (Event (Val N F))} (hj : j ≤ 5) (hr : Reached (k - 1) tr) :
    j ≤ k ↔ Reached j (tr ++ [.completed (stepOf k)]) := by
  constructor
  · intro hjk
    refine reached_le hjk h5 ?_
    obtain ⟨k', rfl⟩ : ∃ k', k = k' + 1 := ⟨k - 1, by omega⟩
    exact ⟨tr, [], rfl, hr, by simp⟩
  · intro h
    refine Classical.byContradiction fun hlt => ?_
    cases j with
    | zero => omega
    | succ j =>
      obtain ⟨b, a, h, hb, ha⟩ := h
      rcases List.eq_nil_or_concat a with rfl | ⟨a', e, rfl⟩
      · have := congrArg List.getLast? h
        simp at this
        have hs := isStep_stepOf (k := k) h1 h5
        have hs' := isStep_stepOf (k := j + 1) (by omega) hj
        rw [this] at hs
        have := isStep_unique hs hs'
        omega
      · have h' : tr ++ [.completed (stepOf k)] =
            (b ++ .completed (stepOf (j + 1)) :: a') ++ [e] := by
          rw [h]; simp
        obtain ⟨_, h2⟩ := List.append_inj' h' rfl
        simp at h2
        refine ha e (by simp) ?_
        rw [← h2]
        exact ⟨_, _, isStep_stepOf h1 h5, by omega⟩

theorem inv_call {m : Name} {k : Nat} (h1 : 1 ≤ k) (h5 : k ≤ 5) (hm : m = stepOf k)
    (body : FBody N F) (hs : Safe ((k : Int) - 1) body) {w : FWorld N F} (h : Inv w) :
    Inv (call desc code m body w).2 := by
  subst hm
  have hent : Inv { w with log := .entered (stepOf k) :: w.log } := by
    refine ⟨h.1, h.2.1, fun j hj => ?_⟩
    show (j : Int) ≤ w.current ↔ Reached j (Event.entered (stepOf k) :: w.log).reverse
    rw [List.reverse_cons, reached_snoc_iff_quiet (by simp), ← h.2.2 j hj]
    constructor
    · intro hle
      exact Or.inr ⟨hle, fun hu => hu⟩
    · rintro (rfl | hle)
      · exact h.1
      · exact hle.1
  rcases call_cases desc desc_unique code _ _ _ (isStep_stepOf h1 h5) body w with
    ⟨_, h'⟩ | ⟨_, _, h'⟩ | ⟨hr, r, w', hex, h'⟩
  · rw [h']; exact h
  · rw [h']; exact h
  · have hw' : Inv w' := by have := inv_exec body hent; rw [hex] at this; exact this
    rcases h' with ⟨e, _, h'⟩ | ⟨_, h'⟩
    · rw [h']; exact hw'
    · rw [h']
      have hge : (k : Int) - 1 ≤ w'.current := by
        have := exec_ge ((k : Int) - 1) body (w := { w with log := .entered (stepOf k) :: w.log })
          hs hr.1
        rw [hex] at this; exact this
      have hreach : Reached (k - 1) w'.log.reverse := by
        rw [← hw'.2.2 (k - 1) (by omega)]
        omega
      refine ⟨?_, ?_, fun j hj => ?_⟩
      · show (0 : Int) ≤ k
        omega
      · show (k : Int) ≤ 5
        omega
      · show (j : Int) ≤ k ↔ Reached j (Event.completed (stepOf k) :: w'.log).reverse
        rw [List.reverse_cons, ← reached_snoc_completed h1 h5 hj hreach]
        omega

theorem inv_step (x : Ext N F A) (op : FOp N F A) {w : FWorld N F} (h : Inv w) :
    Inv (step desc code w (op.toOp x)) := by
  cases op with
  | assign p v => exact inv_assign p v h
  | setTimeScale v l => exact inv_assign _ _ h
  | setTemporalNetwork kw => exact inv_call (k := 1) (by omega) (by omega) rfl _ (safe_setNet x kw) h
  | computeLaplacians kw => exact inv_call (k := 2) (by omega) (by omega) rfl _ (safe_lap x kw) h
  | computeInterT lin t b kw =>
    exact inv_call (k := 3) (by omega) (by omega) rfl _ (safe_inter x lin t b kw) h
  | setFlowClustering kw =>
    exact inv_call (k := 4) (by omega) (by omega) rfl _ (safe_setFlow x kw) h
  | findLouvain kw => exact inv_call (k := 5) (by omega) (by omega) rfl _ (safe_louvain _ x kw) h

theorem inv_run (x : Ext N F A) (ops : List (FOp N F A)) {w : FWorld N F} (h : Inv w) :
    Inv (runF x w ops) := by
  unfold runF run
  induction ops generalizing w with
  | nil => exact h
  | cons op ops ih => exact ih (inv_step x op h)

theorem inv_blank : Inv (blank : FWorld N F) := by
  refine ⟨Int.le_refl 0, (by omega : (0 : Int) ≤ 5), fun k hk => ?_⟩
  show (k : Int) ≤ 0 ↔ Reached k []
  constructor
  · intro h
    have : k = 0 := by omega
    subst this
    trivial
  · intro h
    refine Classical.byContradiction fun hc => ?_
    exact not_reached_nil (by omega) h

theorem assignAll_ind (P : FWorld N F → Prop)
    (hstep : ∀ p v w, P w → P (assignNamed desc code p v w).2)
    (l : List (Name × Option (Val N F))) {w w' : FWorld N F} (h : P w)
    (he : assignAll w l = .ok w') : P w' := by
  induction l generalizing w with
  | nil => simp [assignAll] at he; subst he; exact h
  | cons a l ih =>
    obtain ⟨p, v⟩ := a
    unfold assignAll at he
    have := hstep p v w h
    cases hr : assignNamed desc code p v w with
    | mk r w1 =>
      rw [hr] at he this
      cases r with
      | none => exact ih this he
      | some e => simp at he

theorem inv_construct {n a b s d : Option (Val N F)} {w : FWorld N F}
    (h : construct n a b s d = .ok w) : Inv w :=
  assignAll_ind Inv (fun p v _ hw => inv_assign p v hw) _ inv_blank h

/-- A predicate kept by assignments, object updates and state changes is kept by
every user action. -/
theorem exec_ind (P : FWorld N F → Prop)
    (hassign : ∀ p v w, P w → P (assignNamed desc code p v w).2)
    (hobj : ∀ (w : FWorld N F) (f : Obj N F → Obj N F), P w → P { w with obj := f w.obj }) (b : FBody N F) {w : FWorld N F} (h : P w) :
    P (exec desc code b w).2 := by
  induction b generalizing w with
  | ret => exact h
  | raise e => exact h
  | read k ih => exact ih _ h
  | update f k ih => exact ih (hobj w f h)
  | assign p v k ih => exact ih _ (hassign p v w h)

theorem call_ind (P : FWorld N F → Prop)
    (hlog : ∀ w c l, P w → P { w with current := c, log := l })
    (m : Name) (b : FBody N F) (hex : ∀ w, P w → P (exec desc code b w).2)
    {w : FWorld N F} (h : P w) : P (call desc code m b w).2 := by
  unfold call
  split
  · split
    · exact h
    · simp only
      split
      · exact h
      · have h1 : P { w with log := .entered m :: w.log } := hlog w w.current _ h
        have h2 := hex _ h1
        cases hr : exec desc code b { w with log := .entered m :: w.log } with
        | mk r w' =>
          rw [hr] at h2
          cases r with
          | none => exact hlog w' _ _ h2
          | some e => exact h2
  · exact h
  · exact h

/-! ### one direction only -/

theorem find_fwd : desc.find "flow_clustering_forward" = some (.prop 4 true) := by decide
theorem find_bwd : desc.find "flow_clustering_backward" = some (.prop 4 true) := by decide
theorem find_dir : desc.find "time_direction" = some (.prop 3 true) := by decide
theorem find_scale : desc.find "time_scale" = some (.prop 2 true) := by decide
theorem find_net : desc.find "temporal_network" = some (.prop 1 true) := by decide
theorem find_start : desc.find "t_start" = some (.prop 1 false) := by decide
theorem find_stop : desc.find "t_stop" = some (.prop 1 false) := by decide

theorem storeTimeScale_dir (it : PyIter) (o : Obj N F) :
    (storeTimeScale it o).2.timeDirection = o.timeDirection := by
  unfold storeTimeScale; simp only; split <;> rfl

theorem setter_dir (p : Name) (hp : p ≠ "time_direction") (v : Option (Val N F)) (o : Obj N F) :
    (setter p v o).2.timeDirection = o.timeDirection := by
  unfold setter
  by_cases h1 : p = "temporal_network"
  · rw [if_pos h1]; split <;> rfl
  rw [if_neg h1]
  by_cases h2 : p = "time_scale"
  · rw [if_pos h2]; split <;> first | exact storeTimeScale_dir _ _ | rfl
  rw [if_neg h2]
  by_cases h3 : p = "t_start"
  · rw [if_pos h3]
  rw [if_neg h3]
  by_cases h4 : p = "t_stop"
  · rw [if_pos h4]
  rw [if_neg h4, if_neg hp]
  by_cases h5 : p = "flow_clustering_forward"
  · rw [if_pos h5]
    split
    · split <;> rfl
    · rfl
    · rfl
  rw [if_neg h5]
  by_cases h6 : p = "flow_clustering_backward"
  · rw [if_pos h6]
    split
    · split <;> rfl
    · rfl
    · rfl
  rw [if_neg h6]

/-- Direction `d` only, and the property of the other direction (`q`) never set. -/
def Only (d : Int) (q : Name) (w : FWorld N F) : Prop :=
  w.obj.timeDirection = d ∧ w.flags q = false

theorem only_assign {d : Int} {q p : Name} {v : Option (Val N F)} (hd : d = 1 ∨ d = -1)
    (hp : p ≠ q) (hv : p = "time_direction" → v = some (.int d)) {w : FWorld N F}
    (h : Only d q w) : Only d q (assignNamed desc code p v w).2 := by
  have hdir : (setter p v w.obj).2.timeDirection = d := by
    by_cases hpd : p = "time_direction"
    · rw [hv hpd, hpd]
      rcases hd with rfl | rfl <;> simp [setter]
    · rw [setter_dir p hpd]; exact h.1
  rcases assignNamed_cases desc code p v w with ⟨s, ig, hf, h'⟩ | ⟨_, h'⟩
  · rcases h' with ⟨e, o, ho, h'⟩ | ⟨o, ho, h'⟩
    · rw [h']
      have : setter p v w.obj = (some e, o) := ho
      rw [this] at hdir
      exact ⟨hdir, h.2⟩
    · rw [h']
      have : setter p v w.obj = (none, o) := ho
      rw [this] at hdir
      refine ⟨hdir, ?_⟩
      show (if q = p then _ else w.flags q) = false
      rw [if_neg (Ne.symm hp)]
      exact h.2
  · rw [h']; exact h

/-- The body keeps `Only d q`. -/
def PresOnly (d : Int) (q : Name) (b : FBody N F) : Prop :=
  ∀ w : FWorld N F, Only d q w → Only d q (exec desc code b w).2

theorem pres_finish (d : Int) (q : Name) (e : Option Exc) : PresOnly d q (finish e : FBody N F) := by
  intro w h; cases e <;> exact h

theorem pres_update {d : Int} {q : Name} {f : Obj N F → Obj N F} {b : FBody N F}
    (hf : ∀ o, (f o).timeDirection = o.timeDirection) (hb : PresOnly d q b) :
    PresOnly d q (.update f b) := by
  intro w h
  exact hb _ ⟨(hf w.obj).trans h.1, h.2⟩

theorem pres_assign {d : Int} {q p : Name} {v : Option (Val N F)} {k : Option Exc → FBody N F}
    (hd : d = 1 ∨ d = -1) (hp : p ≠ q) (hv : p ≠ "time_direction") (hk : ∀ e, PresOnly d q (k e)) :
    PresOnly d q (.assign p v k) := by
  intro w h
  exact hk _ _ (only_assign hd hp (fun h => absurd h hv) h)

theorem pres_read {d : Int} {q : Name} {k : Obj N F → FBody N F}
    (hk : ∀ o, o.timeDirection = d → PresOnly d q (k o)) : PresOnly d q (.read k) := by
  intro w h
  exact hk _ h.1 _ h

theorem pres_forTimeScales {d : Int} {q : Name} {k : List (Option Rat) → FBody N F}
    (hk : ∀ l, PresOnly d q (k l)) : PresOnly d q (forTimeScales k) :=
  pres_read fun _ _ => pres_update (fun _ => rfl) (hk _)

theorem pres_setNet (d : Int) (q : Name) (hd : d = 1 ∨ d = -1) (hq : q ≠ "temporal_network")
    (x : Ext N F A) (kw : Option A) :
    PresOnly d q (setTemporalNetwork x kw) := by
  unfold setTemporalNetwork
  cases kw with
  | none => exact pres_assign hd (Ne.symm hq) (by decide) (pres_finish d q)
  | some a =>
    dsimp only
    cases x.mkNet a with
    | error e => intro w h; exact h
    | ok n => exact pres_assign hd (Ne.symm hq) (by decide) (pres_finish d q)

theorem pres_lap (d : Int) (q : Name) (x : Ext N F A) (kw : A) :
    PresOnly d q (computeLaplacians x kw) := by
  refine pres_read fun o _ => ?_
  cases o.temporalNetwork with
  | none => intro w h; exact h
  | some n => exact pres_update (fun _ => rfl) (pres_finish d q _)

theorem pres_interLoop (d : Int) (q : Name) (x : Ext N F A) (lin bad : Bool) (kw : A)
    (l : List (Option Rat)) : PresOnly d q (interLoop x lin bad kw l) := by
  induction l with
  | nil => intro w h; exact h
  | cons ts rest ih =>
    unfold interLoop
    cases bad with
    | true => intro w h; exact h
    | false =>
      refine pres_read fun o _ => ?_
      cases o.temporalNetwork with
      | none => intro w h; exact h
      | some n =>
        refine pres_update (fun _ => rfl) ?_
        cases (x.interT lin n (ts.map fun q => 1 / q) kw).1 with
        | none => exact ih
        | some e => intro w h; exact h

theorem pres_inter (d : Int) (q : Name) (hd : d = 1 ∨ d = -1) (hq : q ≠ "time_scale")
    (x : Ext N F A) (lin : Bool)
    (t : Option (Option (Val N F))) (b : Bool) (kw : A) :
    PresOnly d q (computeInterT x lin t b kw) := by
  refine pres_read fun o _ => ?_
  cases o.temporalNetwork with
  | none => intro w h; exact h
  | some n =>
    dsimp only
    match t with
    | none =>
      dsimp only
      cases b with
      | true => intro w h; exact h
      | false => exact pres_forTimeScales (pres_interLoop d q x lin false kw)
    | some none => exact pres_forTimeScales (pres_interLoop d q x lin true kw)
    | some (some v) =>
      refine pres_assign hd (Ne.symm hq) (by decide) fun e => ?_
      cases e with
      | none => exact pres_forTimeScales (pres_interLoop d q x lin true kw)
      | some e => intro w h; exact h

theorem pres_tryFlow {d : Int} {q p : Name} (hd : d = 1 ∨ d = -1) (hp : p ≠ q)
    (hpd : p ≠ "time_direction") (m : Except Exc F) (ts : Option Rat)
    (r : Bool) (k : FBody N F) (hk : PresOnly d q k) : PresOnly d q (tryFlow p m ts r k) := by
  unfold tryFlow
  cases m with
  | error e =>
    dsimp only
    split
    · exact hk
    · intro w h; exact h
  | ok f =>
    refine pres_assign hd hp hpd fun e => ?_
    cases e with
    | none => exact hk
    | some e =>
      dsimp only
      split
      · exact hk
      · intro w h; exact h

/-- The property of the direction that is not asked for. -/
def otherProp (d : Int) : Name :=
  if d = 1 then "flow_clustering_backward" else "flow_clustering_forward"

theorem pres_flowLoop {d : Int} (hd : d = 1 ∨ d = -1) (x : Ext N F A) (kw : A)
    (l : List (Option Rat)) : PresOnly d (otherProp d) (flowLoop x kw l) := by
  induction l with
  | nil => intro w h; exact h
  | cons ts rest ih =>
    unfold flowLoop
    refine pres_read fun o ho => ?_
    cases o.temporalNetwork with
    | none => intro w h; exact h
    | some n =>
      dsimp only
      split
      · have hf : PresOnly d (otherProp d) (Body.read fun o : Obj N F =>
            if 0 ≤ o.timeDirection then
              tryFlow "flow_clustering_forward"
                (x.mkFlow n (ts.map fun q => 1 / q) false kw) ts false (flowLoop x kw rest)
            else flowLoop x kw rest) := by
          refine pres_read fun o ho => ?_
          split
          · rcases hd with rfl | rfl
            · exact pres_tryFlow (Or.inl rfl) (by decide) (by decide) _ _ _ _ ih
            · omega
          · exact ih
        split
        · rcases hd with rfl | rfl
          · omega
          · exact pres_tryFlow (Or.inr rfl) (by decide) (by decide) _ _ _ _ hf
        · exact hf
      · intro w h; exact h

theorem pres_louvainOn {d : Int} {q : Name} (x : Ext N F A) (kw : A) (found : Option (Option F))
    (store : F → Obj N F → Obj N F) (hs : ∀ f o, (store f o).timeDirection = o.timeDirection)
    (k : FBody N F) (hk : PresOnly d q k) : PresOnly d q (louvainOn x kw found store k) := by
  unfold louvainOn
  match found with
  | none => intro w h; exact h
  | some none => intro w h; exact h
  | some (some f) =>
    refine pres_update (hs _) ?_
    cases (x.louvain f kw).1 with
    | none => exact hk
    | some e => intro w h; exact h

theorem pres_louvainLoop (d : Int) (q : Name) (x : Ext N F A) (kw : A) (l : List (Option Rat)) :
    PresOnly d q (louvainLoop x kw l) := by
  induction l with
  | nil => intro w h; exact h
  | cons ts rest ih =>
    have hf : PresOnly d q (Body.read fun o : Obj N F =>
        if 0 ≤ o.timeDirection then
          louvainOn x kw (o.forward ts)
            (fun f o => { o with forward := fun k => if k = ts then some (some f) else o.forward k })
            (louvainLoop x kw rest)
        else louvainLoop x kw rest) := by
      refine pres_read fun o _ => ?_
      split
      · refine pres_louvainOn _ _ _ _ ?_ _ ih; intros; rfl
      · exact ih
    unfold louvainLoop
    refine pres_read fun o _ => ?_
    split
    · refine pres_louvainOn _ _ _ _ ?_ _ hf; intros; rfl
    · exact hf

theorem only_call {d : Int} {q m : Name} {b : FBody N F} (hb : PresOnly d q b) {w : FWorld N F}
    (h : Only d q w) : Only d q (call desc code m b w).2 :=
  call_ind (Only d q) (fun _ _ _ h => h) m b hb h

/-! ### both directions -/

theorem assign_fwd (ts : Option Rat) (f : F) (w : FWorld N F) :
    assignNamed desc code "flow_clustering_forward" (some (.flow ts (some (f, false)))) w =
      (none,
        { obj := { w.obj with forward := fun k => if k = ts then some (some f) else w.obj.forward k }
          flags := fun q => if q = "flow_clustering_forward" then true else w.flags q
          current := min w.current 4
          log := .assigned "flow_clustering_forward" (some (.flow ts (some (f, false)))) :: w.log }) := by
  simp [assignNamed, find_fwd, assign, code, setter]

theorem assign_bwd (ts : Option Rat) (f : F) (w : FWorld N F) :
    assignNamed desc code "flow_clustering_backward" (some (.flow ts (some (f, true)))) w =
      (none,
        { obj := { w.obj with backward := fun k => if k = ts then some (some f) else w.obj.backward k }
          flags := fun q => if q = "flow_clustering_backward" then true else w.flags q
          current := min w.current 4
          log := .assigned "flow_clustering_backward" (some (.flow ts (some (f, true)))) :: w.log }) := by
  simp [assignNamed, find_bwd, assign, code, setter]

/-- Both dictionaries hold a clustering for every time scale of the list. -/
def Filled (l : List (Option Rat)) (o : Obj N F) : Prop :=
  ∀ ts ∈ l, (∃ f, o.forward ts = some (some f)) ∧ ∃ f, o.backward ts = some (some f)

theorem flowLoop_both (x : Ext N F A) (kw : A)
    (hmk : ∀ n lam rev, ∃ f, x.mkFlow n lam rev kw = .ok f) (l done : List (Option Rat))
    (w w' : FWorld N F) (hd : w.obj.timeDirection = 0) (hdone : Filled done w.obj)
    (hflag : done ≠ [] → w.flags "flow_clustering_forward" = true ∧
      w.flags "flow_clustering_backward" = true)
    (h : exec desc code (flowLoop x kw l) w = (none, w')) :
    Filled (done ++ l) w'.obj ∧ w'.obj.timeDirection = 0 ∧ w'.obj.timeScale = w.obj.timeScale ∧
      (done ++ l ≠ [] → w'.flags "flow_clustering_forward" = true ∧
        w'.flags "flow_clustering_backward" = true) ∧
      ∀ q, w.flags q = true → w'.flags q = true := by
  induction l generalizing done w with
  | nil =>
    simp only [flowLoop, exec] at h
    injection h with _ h
    subst h
    simp only [List.append_nil]
    exact ⟨hdone, hd, trivial, hflag, fun q hq => hq⟩
  | cons ts rest ih =>
    unfold flowLoop at h
    simp only [exec] at h
    cases hn : w.obj.temporalNetwork with
    | none => rw [hn] at h; simp [exec] at h
    | some n =>
      rw [hn] at h
      dsimp only at h
      split at h
      · obtain ⟨fb, hfb⟩ := hmk n (ts.map fun q => 1 / q) true
        obtain ⟨ff, hff⟩ := hmk n (ts.map fun q => 1 / q) false
        rw [if_pos (by omega)] at h
        rw [hfb, hff] at h
        simp only [tryFlow, tryAssign, exec, assign_bwd, assign_fwd, hd, Int.le_refl, if_true] at h
        have := ih (done ++ [ts]) _ ?_ ?_ ?_ h
        · obtain ⟨h1, h2, h3, h4, h5⟩ := this
          rw [List.append_assoc] at h1 h4
          refine ⟨h1, h2, h3, h4, fun q hq => h5 q ?_⟩
          simp [hq]
        · rfl
        · intro t ht
          rcases List.mem_append.1 ht with ht | ht
          · obtain ⟨⟨f1, h1⟩, ⟨f2, h2⟩⟩ := hdone t ht
            by_cases htt : t = ts
            · simp [htt]
            · simp [htt, h1, h2]
          · simp at ht; simp [ht]
        · intro _; simp
      · simp [exec] at h

theorem louvainLoop_both (x : Ext N F A) (kw : A) (hl : ∀ f, (x.louvain f kw).1 = none)
    (l : List (Option Rat)) (w : FWorld N F) (hd : w.obj.timeDirection = 0)
    (hf : Filled l w.obj) : (exec desc code (louvainLoop x kw l) w).1 = none := by
  induction l generalizing w with
  | nil => rfl
  | cons ts rest ih =>
    obtain ⟨⟨f1, h1⟩, ⟨f2, h2⟩⟩ := hf ts (by simp)
    unfold louvainLoop
    simp only [exec, hd, Int.le_refl, if_true, h2, louvainOn, hl, h1]
    refine ih _ rfl ?_
    intro t ht
    obtain ⟨⟨g1, k1⟩, ⟨g2, k2⟩⟩ := hf t (by simp [ht])
    by_cases htt : t = ts
    · simp [htt]
    · simp [htt, k1, k2]

/-! ### properties registered with `ignore_none=False` stay set -/

theorem flag_stays {q : Name} {s : Int} (hq : desc.find q = some (.prop s false)) (p : Name)
    (v : Option (Val N F)) (w : FWorld N F) (h : w.flags q = true) :
    (assignNamed desc code p v w).2.flags q = true := by
  rcases assignNamed_cases desc code p v w with ⟨s', ig, hf, h'⟩ | ⟨_, h'⟩
  · rcases h' with ⟨e, o, _, h'⟩ | ⟨o, _, h'⟩
    · rw [h']; exact h
    · rw [h']
      show (if q = p then _ else w.flags q) = true
      split
      · rename_i hqp
        subst hqp
        rw [hq] at hf
        injection hf with hf
        injection hf with _ hf
        subst hf
        simp
      · exact h
  · rw [h']; exact h

theorem flag_stays_run {q : Name} {s : Int} (hq : desc.find q = some (.prop s false))
    (x : Ext N F A) (ops : List (FOp N F A)) (w : FWorld N F) (h : w.flags q = true) :
    (runF x w ops).flags q = true := by
  unfold runF run
  have hcall : ∀ m (b : FBody N F) (w : FWorld N F), w.flags q = true →
      (call desc code m b w).2.flags q = true := fun m b w hw =>
    call_ind (fun w => w.flags q = true) (fun _ _ _ h => h) m b
      (fun w h => exec_ind (fun w => w.flags q = true) (flag_stays hq) (fun _ _ h => h) b h) hw
  induction ops generalizing w with
  | nil => exact h
  | cons op ops ih =>
    refine ih _ ?_
    cases op with
    | assign p v => exact flag_stays hq p v w h
    | setTimeScale v l => exact flag_stays hq _ _ w h
    | setTemporalNetwork kw => exact hcall _ _ _ h
    | computeLaplacians kw => exact hcall _ _ _ h
    | computeInterT lin t b kw => exact hcall _ _ _ h
    | setFlowClustering kw => exact hcall _ _ _ h
    | findLouvain kw => exact hcall _ _ _ h

end Verif.FlowStability
