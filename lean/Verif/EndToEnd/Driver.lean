import Verif.FlowStability.Props

/-!
# The steps of `FlowStability` when the code behind them succeeds

Helper lemmas for C81.
-/

set_option linter.dupNamespace false
set_option linter.unusedSectionVars false

namespace Verif.FlowStability

open Verif.StateTracking

variable {N F A : Type}

/-- A step that is allowed and whose body returns. -/
theorem call_returned {m : Name} {lo hi : Int} (hm : IsStep desc m lo hi) {body : FBody N F} {w w' : FWorld N F}
    (hlo : lo ≤ w.current) (hfl : ∀ p s, IsProp desc p s → s ≤ lo → w.flags p = true)
    (hex : exec desc code body { w with log := .entered m :: w.log } = (none, w')) :
    call desc code m body w = (.returned, { w' with current := hi, log := .completed m :: w'.log }) := by
  rcases call_cases desc desc_unique code m lo hi hm body w with ⟨h, _⟩ | ⟨_, h, _⟩ | ⟨_, r, w2, he, h⟩
  · exact absurd hlo h
  · exact absurd ((missingFor_nil_iff desc lo (step_mentioned hm).1 _).2 hfl) h
  · rw [hex] at he
    cases he
    rcases h with ⟨e, h, _⟩ | ⟨_, h⟩
    · cases h
    · exact h

/-- A step that is allowed and whose body raises. -/
theorem call_raised {m : Name} {lo hi : Int} (hm : IsStep desc m lo hi) {body : FBody N F} {w w' : FWorld N F} {e : Exc}
    (hlo : lo ≤ w.current) (hfl : ∀ p s, IsProp desc p s → s ≤ lo → w.flags p = true)
    (hex : exec desc code body { w with log := .entered m :: w.log } = (some e, w')) :
    call desc code m body w = (.raised e, w') := by
  rcases call_cases desc desc_unique code m lo hi hm body w with ⟨h, _⟩ | ⟨_, h, _⟩ | ⟨_, r, w2, he, h⟩
  · exact absurd hlo h
  · exact absurd ((missingFor_nil_iff desc lo (step_mentioned hm).1 _).2 hfl) h
  · rw [hex] at he
    cases he
    rcases h with ⟨e, h, h'⟩ | ⟨h, _⟩
    · cases h; exact h'
    · cases h

/-- The loop over the rates. -/
theorem interLoop_ok (x : Ext N F A) (lin : Bool) (kw : A) (P : N → Prop) (Q : Option Rat → N → Prop)
    (l : List (Option Rat))
    (hstep : ∀ ts ∈ l, ∀ n, P n → ∃ n', x.interT lin n (ts.map fun q => 1 / q) kw = (none, n') ∧ P n' ∧ Q ts n' ∧
      ∀ t, Q t n → Q t n')
    (w : FWorld N F) (n : N) (hn : w.obj.temporalNetwork = some n) (hP : P n) :
    ∃ n', exec desc code (interLoop x lin false kw l) w =
        (none, { w with obj := { w.obj with temporalNetwork := some n' } }) ∧ P n' ∧ (∀ ts ∈ l, Q ts n') ∧
      ∀ t, Q t n → Q t n' := by
  induction l generalizing w n with
  | nil =>
    refine ⟨n, ?_, hP, by simp, fun _ h => h⟩
    simp only [interLoop, exec]
    rw [← hn]
  | cons ts rest ih =>
    obtain ⟨n1, h1, hP1, hQ1, hk1⟩ := hstep ts (by simp) n hP
    obtain ⟨n2, h2, hP2, hQ2, hk2⟩ := ih (fun t ht => hstep t (by simp [ht]))
      { w with obj := { w.obj with temporalNetwork := some n1 } } n1 rfl hP1
    refine ⟨n2, ?_, hP2, ?_, fun t h => hk2 t (hk1 t h)⟩
    · unfold interLoop
      simp only [Bool.false_eq_true, if_false, exec, hn, h1]
      exact h2
    · intro t ht
      rcases List.mem_cons.1 ht with rfl | ht
      · exact hk2 _ hQ1
      · exact hQ2 t ht

/-- The loop that creates the clusterings of both directions. -/
theorem flowLoop_ok (x : Ext N F A) (kw : A) (n : N) (mk : Bool → Option Rat → F) (l : List (Option Rat))
    (hhas : ∀ ts ∈ l, x.hasInterT n (ts.map fun q => 1 / q) = true)
    (hmk : ∀ ts ∈ l, ∀ rev, x.mkFlow n (ts.map fun q => 1 / q) rev kw = .ok (mk rev ts))
    (w : FWorld N F) (hn : w.obj.temporalNetwork = some n) (hd : w.obj.timeDirection = 0) :
    ∃ w', exec desc code (flowLoop x kw l) w = (none, w') ∧ w'.obj.temporalNetwork = some n ∧
      w'.obj.timeDirection = 0 ∧ w'.obj.timeScale = w.obj.timeScale ∧ w'.obj.tStart = w.obj.tStart ∧
      w'.obj.tStop = w.obj.tStop ∧
      (∀ t, w'.obj.forward t = if t ∈ l then some (some (mk false t)) else w.obj.forward t) ∧
      (∀ t, w'.obj.backward t = if t ∈ l then some (some (mk true t)) else w.obj.backward t) ∧
      (∀ q, w.flags q = true → w'.flags q = true) ∧
      (l ≠ [] → w'.flags "flow_clustering_forward" = true ∧ w'.flags "flow_clustering_backward" = true) := by
  induction l generalizing w with
  | nil => exact ⟨w, rfl, hn, hd, rfl, rfl, rfl, by simp, by simp, fun _ h => h, by simp⟩
  | cons ts rest ih =>
    have e1 := hmk ts (by simp) true
    have e2 := hmk ts (by simp) false
    have e3 := hhas ts (by simp)
    unfold flowLoop
    simp only [exec, hn, e3, if_true, hd, Int.le_refl, e1, e2, tryFlow, tryAssign, assign_bwd, assign_fwd]
    obtain ⟨w', h1, h2, h3, h4, h5, h6, h7, h8, h9, h10⟩ := ih (fun t ht => hhas t (by simp [ht]))
      (fun t ht => hmk t (by simp [ht]))
      { obj := { w.obj with
          backward := fun k => if k = ts then some (some (mk true ts)) else w.obj.backward k
          forward := fun k => if k = ts then some (some (mk false ts)) else w.obj.forward k }
        flags := fun q => if q = "flow_clustering_forward" then true
          else if q = "flow_clustering_backward" then true else w.flags q
        current := min (min w.current 4) 4
        log := .assigned "flow_clustering_forward" (some (.flow ts (some (mk false ts, false)))) ::
          .assigned "flow_clustering_backward" (some (.flow ts (some (mk true ts, true)))) :: w.log } hn hd
    refine ⟨w', ?_, h2, h3, h4, h5, h6, ?_, ?_, ?_, fun _ => ?_⟩
    · rw [← h1]; simp only [hn, hd]
    · intro t
      rw [h7]
      by_cases ht : t ∈ rest
      · simp [ht]
      · by_cases hts : t = ts <;> simp [ht, hts]
    · intro t
      rw [h8]
      by_cases ht : t ∈ rest
      · simp [ht]
      · by_cases hts : t = ts <;> simp [ht, hts]
    · intro q hq
      apply h9
      simp [hq]
    · constructor <;> apply h9 <;> simp

/-- The loop that clusters both directions. -/
theorem louvainLoop_ok (x : Ext N F A) (kw : A) (G S : Bool → Option Rat → F → Prop) (l : List (Option Rat))
    (hrun : ∀ rev, ∀ ts ∈ l, ∀ f, G rev ts f → ∃ f', x.louvain f kw = (none, f') ∧ S rev ts f')
    (hSG : ∀ rev, ∀ ts ∈ l, ∀ f, S rev ts f → G rev ts f)
    (w : FWorld N F) (hd : w.obj.timeDirection = 0)
    (hf : ∀ ts ∈ l, ∃ f, w.obj.forward ts = some (some f) ∧ G false ts f)
    (hb : ∀ ts ∈ l, ∃ f, w.obj.backward ts = some (some f) ∧ G true ts f) :
    ∃ w', exec desc code (louvainLoop x kw l) w = (none, w') ∧ w'.obj.temporalNetwork = w.obj.temporalNetwork ∧
      w'.obj.timeDirection = 0 ∧ w'.obj.timeScale = w.obj.timeScale ∧ w'.obj.tStart = w.obj.tStart ∧
      w'.obj.tStop = w.obj.tStop ∧ w'.flags = w.flags ∧
      (∀ ts ∈ l, ∃ f, w'.obj.forward ts = some (some f) ∧ S false ts f) ∧
      (∀ ts ∈ l, ∃ f, w'.obj.backward ts = some (some f) ∧ S true ts f) ∧
      (∀ t f, w.obj.forward t = some (some f) → S false t f → ∃ f', w'.obj.forward t = some (some f') ∧ S false t f') ∧
      (∀ t f, w.obj.backward t = some (some f) → S true t f → ∃ f', w'.obj.backward t = some (some f') ∧ S true t f') := by
  induction l generalizing w with
  | nil =>
    exact ⟨w, rfl, rfl, hd, rfl, rfl, rfl, rfl, by simp, by simp, fun t f h1 h2 => ⟨f, h1, h2⟩,
      fun t f h1 h2 => ⟨f, h1, h2⟩⟩
  | cons ts rest ih =>
    obtain ⟨f1, k1, g1⟩ := hf ts (by simp)
    obtain ⟨f2, k2, g2⟩ := hb ts (by simp)
    obtain ⟨f1', r1, s1⟩ := hrun false ts (by simp) f1 g1
    obtain ⟨f2', r2, s2⟩ := hrun true ts (by simp) f2 g2
    obtain ⟨w', h1, h2, h3, h4, h5, h6, h7, h8, h9, h10, h11⟩ := ih (fun rev t ht => hrun rev t (by simp [ht]))
      (fun rev t ht => hSG rev t (by simp [ht]))
      { w with obj := { w.obj with
          backward := fun k => if k = ts then some (some f2') else w.obj.backward k
          forward := fun k => if k = ts then some (some f1') else w.obj.forward k } } hd
      (by
        intro t ht
        by_cases h : t = ts
        · subst h
          exact ⟨f1', by simp, hSG _ _ (by simp) _ s1⟩
        · obtain ⟨f, a, b⟩ := hf t (by simp [ht])
          exact ⟨f, by simp [h, a], b⟩)
      (by
        intro t ht
        by_cases h : t = ts
        · subst h
          exact ⟨f2', by simp, hSG _ _ (by simp) _ s2⟩
        · obtain ⟨f, a, b⟩ := hb t (by simp [ht])
          exact ⟨f, by simp [h, a], b⟩)
    refine ⟨w', ?_, h2, h3, h4, h5, h6, h7, ?_, ?_, ?_, ?_⟩
    · rw [← h1]
      conv_lhs => unfold louvainLoop
      simp only [exec, hd, Int.le_refl, if_true, k2, louvainOn, r2, k1, r1]
    · intro t ht
      by_cases h : t = ts
      · subst h
        exact h10 _ f1' (by simp) s1
      · exact h8 t (by simpa [h] using ht)
    · intro t ht
      by_cases h : t = ts
      · subst h
        exact h11 _ f2' (by simp) s2
      · exact h9 t (by simpa [h] using ht)
    · intro t f a b
      by_cases h : t = ts
      · subst h
        exact h10 _ f1' (by simp) s1
      · exact h10 t f (by simp [h, a]) b
    · intro t f a b
      by_cases h : t = ts
      · subst h
        exact h11 _ f2' (by simp) s2
      · exact h11 t f (by simp [h, a]) b

end Verif.FlowStability
