import Verif.EndToEnd.Lemmas

/-!
# C81: the steps one by one
-/

set_option linter.dupNamespace false
set_option linter.unusedSectionVars false

namespace Verif.EndToEnd

open Verif.FlowStability Verif.TempNet Verif.Trans Verif.Louvain Verif.Flow
open Verif.StateTracking (call exec step assignNamed IsStep IsProp)

variable {L : Type} [LinearOrder L]

/-- An instance with time scales, both time directions and a window. -/
structure Prepared (w : FWorld (NetObj L) FlowObj) (l : List (Option Rat)) (a b : Option (Val (NetObj L) FlowObj)) : Prop where
  scale : w.obj.timeScale = .reusable l
  direction : w.obj.timeDirection = 0
  tStart : w.obj.tStart = a
  tStop : w.obj.tStop = b
  flags : ∀ p ∈ ["t_start", "t_stop", "time_scale", "time_direction"], w.flags p = true

theorem ready_of {w : FWorld (NetObj L) FlowObj} {l a b} (h : Prepared w l a b) (lo : Int)
    (h1 : 1 ≤ lo → w.flags "temporal_network" = true)
    (h4 : 4 ≤ lo → w.flags "flow_clustering_forward" = true ∧ w.flags "flow_clustering_backward" = true) :
    ∀ p s, IsProp desc p s → s ≤ lo → w.flags p = true := by
  intro p s hp hs
  rcases isProp_cases hp with ⟨rfl, rfl⟩ | ⟨rfl, rfl⟩ | ⟨rfl, rfl⟩ | ⟨rfl, rfl⟩ | ⟨rfl, rfl⟩ | ⟨rfl, rfl⟩ | ⟨rfl, rfl⟩
  all_goals first
    | exact h1 hs
    | exact (h4 hs).1
    | exact (h4 hs).2
    | exact h.flags _ (by simp)

variable (sf : Nat → Bool) (sc0 : Sched) (par0 : Params ℝ)

theorem stage_net {w : FWorld (NetObj L) FlowObj} {l : List (Option Rat)} {a b} (h : Prepared w l a b) (hc : 0 ≤ w.current)
    (evs : List (Event L ℝ)) :
    ∃ w', call desc code "set_temporal_network" (setTemporalNetwork (ext sf sc0 par0) (some (.network evs))) w = (.returned, w') ∧
      Prepared w' l a b ∧ w'.current = 1 ∧ w'.flags "temporal_network" = true ∧
      w'.obj.temporalNetwork = some ⟨ofEvents evs, Trans.State.fresh⟩ := by
  refine ⟨_, call_returned (lo := 0) (hi := 1) (by unfold IsStep desc; decide) hc
    (ready_of h 0 (by omega) (by omega)) (by rfl), ?_, rfl, by rfl, rfl⟩
  refine ⟨h.scale, h.direction, h.tStart, h.tStop, ?_⟩
  intro p hp
  have := h.flags p hp
  simp only [List.mem_cons, List.not_mem_nil, or_false] at hp
  rcases hp with rfl | rfl | rfl | rfl <;> exact this

theorem stage_laps {w : FWorld (NetObj L) FlowObj} {l : List (Option Rat)} {a b} (h : Prepared w l a b) (hc : 1 ≤ w.current)
    (hfl : w.flags "temporal_network" = true) {N : NetObj L} (hN : w.obj.temporalNetwork = some N) {a' b' : Option ℝ}
    (ha : boundary a = .ok a') (hb : boundary b = .ok b') {Lp : Laps ℝ}
    (hL : computeLaplacians N.net.numNodes N.net.events sf a' b' = .ok Lp) :
    ∃ w', call desc code "compute_laplacian_matrices" (FlowStability.computeLaplacians (ext sf sc0 par0) .none) w = (.returned, w') ∧
      Prepared w' l a b ∧ w'.current = 2 ∧ w'.flags = w.flags ∧
      w'.obj.temporalNetwork = some ⟨N.net, { N.state with laps := some Lp }⟩ := by
  have hex : exec desc code (FlowStability.computeLaplacians (ext sf sc0 par0) .none)
      { w with log := .entered "compute_laplacian_matrices" :: w.log } =
      (none, { w with log := .entered "compute_laplacian_matrices" :: w.log,
                      obj := { w.obj with temporalNetwork := some ⟨N.net, { N.state with laps := some Lp }⟩ } }) := by
    unfold FlowStability.computeLaplacians
    simp only [exec, hN, h.tStart, h.tStop]
    have : (ext sf sc0 par0).laplacians N a b .none = (none, ⟨N.net, { N.state with laps := some Lp }⟩) := by
      show netLaplacians sf N a b .none = _
      unfold netLaplacians
      simp only [ha, hb, State.laplacians, env, hL]
    rw [this]
    rfl
  refine ⟨_, call_returned (lo := 1) (hi := 2) (by unfold IsStep desc; decide) hc
    (ready_of h 1 (fun _ => hfl) (by omega)) hex, ?_, rfl, rfl, rfl⟩
  exact ⟨h.scale, h.direction, h.tStart, h.tStop, h.flags⟩

theorem cast_rate (q : Rat) : ((1 / q : Rat) : ℝ) = 1 / (q : ℝ) := by push_cast; rfl

/-- The rates of the time scales are there, or will be computed, with the given matrices. -/
def Expects (evs : List (Event L ℝ)) (scales : List Rat) (Lp : Laps ℝ) (V : Rat → List (Mat ℝ)) (N : NetObj L) : Prop :=
  N.net = ofEvents evs ∧ N.state.laps = some Lp ∧ ∀ q ∈ scales,
    N.state.interT.lookup (1 / (q : ℝ)) = some (V q) ∨ (N.state.interT.lookup (1 / (q : ℝ)) = none ∧
      interMats (ofEvents evs).numNodes (expm (ofEvents evs).numNodes) (timesOf (ofEvents evs).events) Lp (1 / (q : ℝ)) false = V q)

theorem stage_inter {w : FWorld (NetObj L) FlowObj} {scales : List Rat} {a b} (h : Prepared w (scales.map some) a b) (hc : 2 ≤ w.current)
    (hfl : w.flags "temporal_network" = true) {N : NetObj L} (hN : w.obj.temporalNetwork = some N)
    {evs : List (Event L ℝ)} {Lp : Laps ℝ} {V : Rat → List (Mat ℝ)} (hE : Expects evs scales Lp V N) :
    ∃ w' N', call desc code "compute_inter_transition_matrices" (computeInterT (ext sf sc0 par0) false none false .none) w =
        (.returned, w') ∧ Prepared w' (scales.map some) a b ∧ w'.current = 3 ∧ w'.flags = w.flags ∧
      w'.obj.temporalNetwork = some N' ∧ N'.net = ofEvents evs ∧
      ∀ q ∈ scales, N'.state.interT.lookup (1 / (q : ℝ)) = some (V q) := by
  obtain ⟨N', h1, h2, h3, -⟩ := interLoop_ok (ext sf sc0 par0) false Kw.none (Expects evs scales Lp V)
    (fun ts M => ∀ q, ts = some q → M.state.interT.lookup (1 / (q : ℝ)) = some (V q)) (scales.map some)
    (by
      intro ts hts M hM
      obtain ⟨q, hq, rfl⟩ := List.mem_map.1 hts
      show ∃ n', netInter sf false M (some (1 / q)) .none = (none, n') ∧ _
      have hens : M.state.ensureLaps (env sf M) none none = .ok (M.state, Lp) := by
        unfold State.ensureLaps
        rw [hM.2.1]
      rcases hM.2.2 q hq with hl | ⟨hl, hv⟩
      · refine ⟨M, ?_, hM, ?_, fun _ h => h⟩
        · unfold netInter
          simp only [rateOf, cast_rate, Bool.false_eq_true, if_false, State.inter, hens, hl]
        · intro q' hq'
          cases hq'
          exact hl
      · refine ⟨⟨M.net, { M.state with interT := (1 / (q : ℝ), V q) :: M.state.interT }⟩, ?_, ⟨hM.1, hM.2.1, ?_⟩, ?_, ?_⟩
        · unfold netInter
          simp only [rateOf, cast_rate, Bool.false_eq_true, if_false, State.inter, hens, hl]
          rw [← hv]
          simp only [env, hM.1]
        · intro q' hq'
          by_cases he : q' = q
          · subst he
            left
            show List.lookup _ (_ :: _) = _
            rw [List.lookup_cons_self]
          · have hne : ((1 / (q' : ℝ)) == (1 / (q : ℝ))) = false := by
              rw [beq_eq_false_iff_ne]
              intro hc
              rw [one_div, one_div, inv_inj] at hc
              exact he (by exact_mod_cast hc)
            show List.lookup _ (_ :: _) = _ ∨ List.lookup _ (_ :: _) = _ ∧ _
            rw [List.lookup_cons, hne]
            exact hM.2.2 q' hq'
        · intro q' hq'
          cases hq'
          show List.lookup _ (_ :: _) = _
          rw [List.lookup_cons_self]
        · intro t ht q' hq'
          have h0 := ht q' hq'
          show List.lookup _ (_ :: _) = _
          rw [List.lookup_cons]
          cases hb : ((1 / (q' : ℝ)) == (1 / (q : ℝ))) with
          | false => exact h0
          | true =>
            rw [beq_iff_eq] at hb
            rw [hb, hl] at h0
            cases h0)
    { w with log := .entered "compute_inter_transition_matrices" :: w.log } N hN hE
  have hex : exec desc code (computeInterT (ext sf sc0 par0) false none false .none)
      { w with log := .entered "compute_inter_transition_matrices" :: w.log } =
      (none, { w with log := .entered "compute_inter_transition_matrices" :: w.log,
                      obj := { w.obj with temporalNetwork := some N' } }) := by
    unfold computeInterT
    simp only [exec, hN, Bool.false_eq_true, if_false, forTimeScales, h.scale, PyIter.loop]
    have e : w.obj = { w.obj with temporalNetwork := some N, timeScale := .reusable (scales.map some) } := by
      rw [← h.scale, ← hN]
    rw [e] at h1
    exact h1
  refine ⟨_, N', call_returned (lo := 2) (hi := 3) (by unfold IsStep desc; decide) hc
    (ready_of h 2 (fun _ => hfl) (by omega)) hex, ⟨h.scale, h.direction, h.tStart, h.tStop, h.flags⟩, rfl, rfl, rfl, h2.1, ?_⟩
  intro q hq
  exact h3 (some q) (List.mem_map.2 ⟨q, hq, rfl⟩) q rfl

/-- The object made for a scale and a direction. -/
noncomputable def made (N : NetObj L) (rev : Bool) (ts : Option Rat) : FlowObj :=
  match netFlow N (ts.map fun q => 1 / q) rev .none with
  | .ok f => f
  | .error _ => ⟨flowInput N 0 false, ⟨fun _ => 0, [], [], [], [], []⟩, false, none⟩

theorem stage_flow {w : FWorld (NetObj L) FlowObj} {scales : List Rat} {a b} (h : Prepared w (scales.map some) a b) (hc : 3 ≤ w.current)
    (hfl : w.flags "temporal_network" = true) {N : NetObj L} (hN : w.obj.temporalNetwork = some N) (hne : scales ≠ [])
    (hhas : ∀ q ∈ scales, (N.state.interT.lookup (1 / (q : ℝ))).isSome)
    (hmk : ∀ q ∈ scales, ∀ rev, ∃ f, netFlow N (some (1 / q)) rev .none = .ok f) :
    ∃ w', call desc code "set_flow_clustering" (setFlowClustering (ext sf sc0 par0) .none) w = (.returned, w') ∧
      Prepared w' (scales.map some) a b ∧ w'.current = 4 ∧ (∀ p, w.flags p = true → w'.flags p = true) ∧
      w'.flags "flow_clustering_forward" = true ∧ w'.flags "flow_clustering_backward" = true ∧
      w'.obj.temporalNetwork = some N ∧
      (∀ q ∈ scales, w'.obj.forward (some q) = some (some (made N false (some q)))) ∧
      (∀ q ∈ scales, w'.obj.backward (some q) = some (some (made N true (some q)))) := by
  obtain ⟨w', h1, h2, h3, h4, h5, h6, h7, h8, h9, h10⟩ := flowLoop_ok (ext sf sc0 par0) Kw.none N (made N) (scales.map some)
    (by
      intro ts hts
      obtain ⟨q, hq, rfl⟩ := List.mem_map.1 hts
      show netHas N (some (1 / q)) = true
      unfold netHas
      simp only [cast_rate]
      exact hhas q hq)
    (by
      intro ts hts rev
      obtain ⟨q, hq, rfl⟩ := List.mem_map.1 hts
      obtain ⟨f, hf⟩ := hmk q hq rev
      show netFlow N (some (1 / q)) rev .none = _
      unfold made
      simp only [Option.map_some, hf])
    { w with log := .entered "set_flow_clustering" :: w.log } hN h.direction
  have hex : exec desc code (setFlowClustering (ext sf sc0 par0) .none)
      { w with log := .entered "set_flow_clustering" :: w.log } = (none, w') := by
    unfold setFlowClustering forTimeScales
    simp only [exec, h.scale, PyIter.loop]
    have e : w.obj = { w.obj with timeScale := .reusable (scales.map some) } := by
      rw [← h.scale]
    rw [e] at h1
    exact h1
  have hfw := h10 (by simpa using hne)
  refine ⟨_, call_returned (lo := 3) (hi := 4) (by unfold IsStep desc; decide) hc
    (ready_of h 3 (fun _ => hfl) (by omega)) hex, ⟨?_, h3, ?_, ?_, ?_⟩, rfl, h9, hfw.1, hfw.2, h2, ?_, ?_⟩
  · exact h4.trans h.scale
  · exact h5.trans h.tStart
  · exact h6.trans h.tStop
  · intro p hp
    exact h9 p (h.flags p hp)
  · intro q hq
    show w'.obj.forward _ = _
    rw [h7, if_pos (List.mem_map.2 ⟨q, hq, rfl⟩)]
  · intro q hq
    show w'.obj.backward _ = _
    rw [h8, if_pos (List.mem_map.2 ⟨q, hq, rfl⟩)]

end Verif.EndToEnd
