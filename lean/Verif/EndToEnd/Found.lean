import Verif.EndToEnd.Stages
import Verif.Groups.Louvain
import Verif.Groups.Walk
import Verif.Louvain.Congr

/-!
# C81: the flow clustering of one time scale
-/

set_option linter.dupNamespace false
set_option linter.unusedSectionVars false

namespace Verif.EndToEnd

open Verif.FlowStability Verif.TempNet Verif.Trans Verif.Louvain Verif.Flow Verif.Partition
open Verif.StateTracking (call exec step assignNamed IsStep IsProp)

variable {L : Type} [LinearOrder L]

theorem uniform_dist {n : Nat} (h : 0 < n) : Verif.Autocov.Distribution n (Verif.Autocov.uniform n : Nat → ℝ) := by
  refine ⟨fun i _ => ?_, ?_⟩
  · unfold Verif.Autocov.uniform
    positivity
  · unfold Verif.Autocov.uniform
    rw [Finset.sum_const, Finset.card_range, nsmul_eq_mul]
    have : (n : ℝ) ≠ 0 := by exact_mod_cast h.ne'
    field_simp

theorem communities_of {nodes : List L} {S S' : Mat ℝ} {cl : List (Finset Nat)} (hS : EqOn nodes.length S' S)
    (hp : IsPartition nodes.length cl)
    (h1 : ∑ i ∈ Finset.range nodes.length, S' i i - 2 / 10 ^ 6 ≤ Verif.Static.pairSum nodes.length S' cl)
    (h2 : ¬ sIsZero nodes.length S' →
      ∑ i ∈ Finset.range nodes.length, S' i i ≤ Verif.Static.pairSum nodes.length S' cl) :
    Communities nodes S cl := by
  classical
  have hd : ∑ i ∈ Finset.range nodes.length, S' i i = ∑ i ∈ Finset.range nodes.length, S i i :=
    Finset.sum_congr rfl fun i hi => hS i (Finset.mem_range.1 hi) i (Finset.mem_range.1 hi)
  have ht : ∀ i j, Together cl i j ↔ ∃ c ∈ cl, i ∈ c ∧ j ∈ c := by
    intro i j
    unfold Together At
    constructor
    · rintro ⟨k, ⟨c, hc, hi⟩, ⟨c', hc', hj⟩⟩
      rw [hc] at hc'
      cases hc'
      exact ⟨c, List.mem_of_getElem? hc, hi, hj⟩
    · rintro ⟨c, hc, hi, hj⟩
      obtain ⟨k, hk⟩ := List.getElem?_of_mem hc
      exact ⟨k, ⟨c, hk, hi⟩, ⟨c, hk, hj⟩⟩
  have hw : Verif.Static.pairSum nodes.length S' cl = within nodes.length S cl := by
    unfold Verif.Static.pairSum within
    refine Finset.sum_congr rfl fun i hi => Finset.sum_congr rfl fun j hj => ?_
    rw [hS i (Finset.mem_range.1 hi) j (Finset.mem_range.1 hj)]
    simp only [ht]
  have hat : ∀ k i, At cl k i ↔ k < cl.length ∧ i ∈ cl.getD k ∅ := by
    intro k i
    unfold At
    rw [List.getD_eq_getElem?_getD]
    constructor
    · rintro ⟨c, hc, hi⟩
      rw [hc]
      exact ⟨(List.getElem?_eq_some_iff.1 hc).1, hi⟩
    · rintro ⟨hk, hi⟩
      rw [List.getElem?_eq_getElem hk] at hi ⊢
      exact ⟨_, rfl, hi⟩
  refine ⟨?_, ?_, ?_, ?_⟩
  · intro i hi
    simpa only [hat] using (hp i).1 hi
  · intro c hc i hi
    by_contra hlt
    obtain ⟨k, hk⟩ := List.getElem?_of_mem hc
    exact (hp i).2 (by omega) k ⟨c, hk, hi⟩
  · rintro ⟨i, hi, j, hj, hij⟩
    rw [← hd, ← hw]
    apply h2
    intro hz
    have := hz i hi j hj
    rw [hS i hi j hj] at this
    exact absurd hij (not_le.2 this)
  · rw [← hd, ← hw]
    exact h1

/-- Random choices and limits of a clustering: those of the call, or the defaults. -/
def used (sc0 : Sched) (par0 : Params ℝ) : Kw L → Sched × Params ℝ
  | .louvain sc par => (sc, par)
  | _ => (sc0, par0)

/-- One search on the walk: `p` is what `Clustering(T=T, S=S)` followed by
`find_louvain_clustering` returns, for the transition of the walk over the whole time and its
covariance. -/
def SearchOf (u : Sched × Params ℝ) (evs : List (Event L ℝ)) (nodes : List L) (times : List ℝ) (scale : ℝ) (rev : Bool) (p : Part) : Prop :=
  ∃ c k, mkClu nodes.length (walkOver evs nodes times scale rev) (flowCov evs nodes times scale rev) .none = .ok c ∧
    Louvain.findLouvain u.1 u.2 c = .ok (k, p)

/-- The clustering of a scale and a direction has found communities. -/
def Found (u : Sched × Params ℝ) (evs : List (Event L ℝ)) (rev : Bool) (q : Rat) (f : FlowObj) : Prop :=
  f.clustered = true ∧ ∃ p, f.partition = some p ∧
    Communities (allLabels evs) (flowCov evs (allLabels evs) (timesOf (ofEvents evs).events) q rev) p.clusters ∧
    Groups.Unmixed (Groups.group evs (allLabels evs)) p.clusters ∧
    SearchOf u evs (allLabels evs) (timesOf (ofEvents evs).events) q rev p

/-- The clustering of a scale and a direction is ready to look for communities, or has found
them. -/
def Made (u : Sched × Params ℝ) (evs : List (Event L ℝ)) (rev : Bool) (q : Rat) (f : FlowObj) : Prop :=
  (f.clustered = false ∧ f.inp.n = (allLabels evs).length ∧ ∃ T S, Flow.clusterInput f.inp f.obj 0 = .ok (some T, S) ∧
    Stoch (allLabels evs).length T ∧ Groups.Closed (allLabels evs).length T (Groups.group evs (allLabels evs)) ∧
    EqOn (allLabels evs).length T (walkOver evs (allLabels evs) (timesOf (ofEvents evs).events) q rev) ∧
    EqOn (allLabels evs).length S (flowCov evs (allLabels evs) (timesOf (ofEvents evs).events) q rev)) ∨ Found u evs rev q f

/-- The matrices held for a scale are those of the walk. -/
def Walks (evs : List (Event L ℝ)) (q : Rat) (Ms : List (Mat ℝ)) : Prop :=
  (∀ M ∈ Ms, Stoch (allLabels evs).length M) ∧
    List.Forall₂ (EqOn (allLabels evs).length) Ms
      ((List.range ((timesOf (ofEvents evs).events).length - 1)).map
        (walkStep evs (allLabels evs) (timesOf (ofEvents evs).events) q))

theorem netFlow_made {evs : List (Event L ℝ)} (h : GoodContacts evs) {N : NetObj L} (hN : N.net = ofEvents evs) {q : Rat}
    {Ms : List (Mat ℝ)} (hl : N.state.interT.lookup (1 / (q : ℝ)) = some Ms) (hW : Walks evs q Ms) (rev : Bool)
    (u : Sched × Params ℝ) : ∃ f, netFlow N (some (1 / q)) rev .none = .ok f ∧ Made u evs rev q f := by
  have h2 := times_two h
  have hpos := nodes_pos h.nonempty
  have hlen : Ms.length = (timesOf (ofEvents evs).events).length - 1 := by
    rw [hW.2.length_eq, List.length_map, List.length_range]
  have hn : (flowInput N (1 / q) rev).n = (allLabels evs).length := by
    show N.net.numNodes = _
    rw [hN]
    exact numNodes_eq evs
  have hreg : Regular (flowInput N (1 / q) rev) Ms (timesOf (ofEvents evs).events) := by
    refine ⟨?_, ?_, ?_, ?_, (C32_time_grid _).1, by omega, ?_, ?_⟩
    · show (N.state.interT.lookup ((1 / q : Rat) : ℝ)).map Mats.inter = _
      rw [cast_rate, hl]
      rfl
    · show some (timesOf N.net.events) = _
      rw [hN]
    · exact List.length_pos_iff.1 (by omega)
    · rw [hn]
      exact hW.1
    · rw [hn]
      exact uniform_dist hpos
    · intro hs
      cases hs
  obtain ⟨o, ho, hk⟩ := construct_default hreg rfl
  obtain ⟨T, S, hc, hS, hT⟩ := C47_clustered_partial hreg ho hk (rest := [Ms.length]) (by simp) (by simp; omega) 0 (by simp)
  obtain ⟨T', rfl, hT'⟩ := hT rfl
  rw [hn] at hS hT'
  refine ⟨⟨flowInput N (1 / q) rev, o, false, none⟩, ?_, .inl ⟨rfl, hn, T', S, hc, ?_, ?_, ?_, ?_⟩⟩
  · unfold netFlow
    simp only [ho]
  · refine stoch_congr hT' (stoch_prod ?_)
    intro A hA
    apply hW.1
    have := List.mem_of_mem_take hA
    split at this
    · exact List.mem_reverse.1 this
    · exact this
  · refine Groups.closed_congr hT' (Groups.closed_prod ?_)
    intro A hA
    have hm : A ∈ Ms := by
      have := List.mem_of_mem_take hA
      split at this
      · exact List.mem_reverse.1 this
      · exact this
    obtain ⟨k, hk, rfl⟩ := List.getElem_of_mem hm
    refine Groups.closed_congr ((List.forall₂_iff_get.1 hW.2).2 k hk (by rw [← hW.2.length_eq]; exact hk)) ?_
    simp only [List.get_eq_getElem, List.getElem_map, List.getElem_range]
    exact Groups.walkStep_closed evs _ _ _ _
  · refine EqOn.trans hT' ?_
    unfold walkOver
    show EqOn _ (prod _ ((if rev then Ms.reverse else Ms).take Ms.length)) _
    have e : (if rev then Ms.reverse else Ms).take Ms.length = if rev then Ms.reverse else Ms := by
      apply List.take_of_length_le
      split <;> simp
    rw [e]
    apply prod_congr
    split
    · exact List.forall₂_reverse_iff.2 hW.2
    · exact hW.2
  · intro i hi j hj
    rw [hS i hi j hj]
    have he := eqOn_flowSteps (n := (allLabels evs).length) (p := fun _ => 1 / ((allLabels evs).length : ℝ)) (reverse := rev)
      (ts := timesOf (ofEvents evs).events) (m := Ms.length) hW.2 i hi j hj
    show meanCov _ _ (flowSteps _ rev Ms _ Ms.length) i j = _
    refine he.trans ?_
    unfold flowCov
    rw [hW.2.length_eq]

theorem louvain_found {evs : List (Event L ℝ)} (h : GoodContacts evs) {rev : Bool} {q : Rat} {f : FlowObj}
    (sc0 : Sched) (par0 : Params ℝ) (kw : Kw L) (hkw : ∀ e, kw ≠ .network e) (hf : Made (used sc0 par0 kw) evs rev q f) :
    ∃ f', flowLouvain sc0 par0 f kw = (none, f') ∧ Found (used sc0 par0 kw) evs rev q f' := by
  have hpos := nodes_pos h.nonempty
  rcases hf with ⟨hc, hn, T, S, hin, hT, hC, hO, hS⟩ | hF
  · have key : ∀ (sc : Sched) (par : Params ℝ), ∃ c p k, mkClu f.inp.n T S .none = .ok c ∧
        Louvain.findLouvain sc par c = .ok (k, p) ∧
        Communities (allLabels evs) (flowCov evs (allLabels evs) (timesOf (ofEvents evs).events) q rev) p.clusters ∧
        Groups.Unmixed (Groups.group evs (allLabels evs)) p.clusters ∧
        SearchOf (sc, par) evs (allLabels evs) (timesOf (ofEvents evs).events) q rev p := by
      intro sc par
      have hrows : ∀ i < (allLabels evs).length, rowSum (allLabels evs).length T i = 1 := fun i hi => (hT i hi).2
      have hok : rowsOk (allLabels evs).length T := fun i hi => .inl (by rw [hrows i hi]; unfold isclose; norm_num)
      obtain ⟨k, cl, s, h1, -, h3, rfl, h5, h6⟩ := Verif.Static.oneRun_spec sc par
        (⟨(allLabels evs).length, T, S, ⟨0, [], fun _ => none⟩⟩ : Clu ℝ) hpos hok
        (fun i hi => by show 0 < rowSum (allLabels evs).length T i; rw [hrows i hi]; norm_num)
      unfold Verif.Static.oneRun at h1
      dsimp only at h1 h3 h5 h6
      rw [hn]
      cases hm : mkClu (allLabels evs).length T S .none with
      | error e => rw [hm] at h1; simp at h1
      | ok c =>
        rw [hm] at h1
        dsimp only at h1
        cases hl : Louvain.findLouvain sc par c with
        | error e => rw [hl] at h1; simp at h1
        | ok r =>
          obtain ⟨k', p⟩ := r
          rw [hl] at h1
          simp only [Except.ok.injEq, Prod.mk.injEq] at h1
          obtain ⟨-, rfl, -⟩ := h1
          refine ⟨c, p, k', rfl, hl, communities_of hS h3 h5 h6, ?_, ?_⟩
          rotate_left
          · obtain ⟨c', e1, e2⟩ := search_congr sc par hS hO hm hl
            exact ⟨c', k', e1, e2⟩
          have hcc : c.n = (allLabels evs).length ∧ c.T = T ∧ c.S = S := by
            unfold mkClu at hm
            rw [if_pos hok] at hm
            split at hm
            · cases hm
            · cases hm
              exact ⟨rfl, rfl, rfl⟩
          have hfresh : FreshDefault c := by
            unfold FreshDefault
            rw [hcc.1, hcc.2.1, hcc.2.2]
            exact hm
          by_cases hz : sIsZero c.n c.S
          · intro u v huv
            by_contra hg
            obtain ⟨i, hu, hv⟩ := id huv
            have hul := at_lt_n h3 hu
            have hvl := at_lt_n h3 hv
            have h9 := hz u (by rw [hcc.1]; exact hul) v (by rw [hcc.1]; exact hvl)
            rw [hcc.1, hcc.2.2, hS u hul v hvl, Groups.flowCov_apart (C32_time_grid _).1 (times_two h) _ _ hul hvl hg] at h9
            have hp : (0 : ℝ) < 1 / ((allLabels evs).length : ℝ) ^ 2 := by
              have : (0 : ℝ) < ((allLabels evs).length : ℝ) := by exact_mod_cast hpos
              positivity
            rw [abs_neg, abs_of_pos hp, div_eq_mul_one_div (1 / 10 ^ 6 : ℝ)] at h9
            nlinarith
          · exact Groups.C129_louvain sc par c hfresh (by rw [hcc.1, hcc.2.1]; exact hC) hz k' p hl
    cases kw with
    | network e => exact absurd rfl (hkw e)
    | none =>
      obtain ⟨c, p, k, h1, h2, h3⟩ := key sc0 par0
      refine ⟨{ f with clustered := true, partition := some p }, ?_, rfl, p, rfl, h3⟩
      unfold flowLouvain
      simp only [hc, Bool.false_eq_true, if_false, hin, h1, h2]
    | louvain sc par =>
      obtain ⟨c, p, k, h1, h2, h3⟩ := key sc par
      refine ⟨{ f with clustered := true, partition := some p }, ?_, rfl, p, rfl, h3⟩
      unfold flowLouvain
      simp only [hc, Bool.false_eq_true, if_false, hin, h1, h2]
  · refine ⟨f, ?_, hF⟩
    cases kw with
    | network e => exact absurd rfl (hkw e)
    | none => unfold flowLouvain; simp only [hF.1, if_true]
    | louvain sc par => unfold flowLouvain; simp only [hF.1, if_true]

variable (sf : Nat → Bool) (sc0 : Sched) (par0 : Params ℝ)

theorem stage_louvain {w : FWorld (NetObj L) FlowObj} {scales : List Rat} {a b} (h : Prepared w (scales.map some) a b) (hc : 4 ≤ w.current)
    (h1 : w.flags "temporal_network" = true)
    (h4 : w.flags "flow_clustering_forward" = true ∧ w.flags "flow_clustering_backward" = true)
    {evs : List (Event L ℝ)} (hG : GoodContacts evs) (kw : Kw L) (hkw : ∀ e, kw ≠ .network e)
    (hf : ∀ q ∈ scales, ∃ f, w.obj.forward (some q) = some (some f) ∧ Made (used sc0 par0 kw) evs false q f)
    (hb : ∀ q ∈ scales, ∃ f, w.obj.backward (some q) = some (some f) ∧ Made (used sc0 par0 kw) evs true q f) :
    ∃ w', call desc code "find_louvain_clustering" (FlowStability.findLouvain (ext sf sc0 par0) kw) w = (.returned, w') ∧
      Prepared w' (scales.map some) a b ∧ w'.current = 5 ∧ w'.flags = w.flags ∧ w'.obj.temporalNetwork = w.obj.temporalNetwork ∧
      (∀ q ∈ scales, ∃ f, w'.obj.forward (some q) = some (some f) ∧ Found (used sc0 par0 kw) evs false q f) ∧
      (∀ q ∈ scales, ∃ f, w'.obj.backward (some q) = some (some f) ∧ Found (used sc0 par0 kw) evs true q f) := by
  obtain ⟨w', e1, e2, e3, e4, e5, e6, e7, e8, e9, -, -⟩ := louvainLoop_ok (ext sf sc0 par0) kw
    (fun rev ts f => ∀ q, ts = some q → Made (used sc0 par0 kw) evs rev q f) (fun rev ts f => ∀ q, ts = some q → Found (used sc0 par0 kw) evs rev q f)
    (scales.map some)
    (by
      intro rev ts hts f hf
      obtain ⟨q, hq, rfl⟩ := List.mem_map.1 hts
      obtain ⟨f', r1, r2⟩ := louvain_found hG sc0 par0 kw hkw (hf q rfl)
      refine ⟨f', r1, ?_⟩
      intro q' hq'
      cases hq'
      exact r2)
    (fun rev ts _ f hf q hq => .inr (hf q hq))
    { w with log := .entered "find_louvain_clustering" :: w.log } h.direction
    (by
      intro ts hts
      obtain ⟨q, hq, rfl⟩ := List.mem_map.1 hts
      obtain ⟨f, r1, r2⟩ := hf q hq
      refine ⟨f, r1, ?_⟩
      intro q' hq'
      cases hq'
      exact r2)
    (by
      intro ts hts
      obtain ⟨q, hq, rfl⟩ := List.mem_map.1 hts
      obtain ⟨f, r1, r2⟩ := hb q hq
      refine ⟨f, r1, ?_⟩
      intro q' hq'
      cases hq'
      exact r2)
  have hex : exec desc code (FlowStability.findLouvain (ext sf sc0 par0) kw)
      { w with log := .entered "find_louvain_clustering" :: w.log } = (none, w') := by
    unfold FlowStability.findLouvain forTimeScales
    simp only [exec, h.scale, PyIter.loop]
    have e : w.obj = { w.obj with timeScale := .reusable (scales.map some) } := by
      rw [← h.scale]
    rw [e] at e1
    exact e1
  refine ⟨_, call_returned (lo := 4) (hi := 5) (by unfold IsStep desc; decide) hc
    (ready_of h 4 (fun _ => h1) (fun _ => h4)) hex, ⟨?_, e3, ?_, ?_, ?_⟩, rfl, e7, e2, ?_, ?_⟩
  · exact e4.trans h.scale
  · exact e5.trans h.tStart
  · exact e6.trans h.tStop
  · intro p hp
    show w'.flags p = true
    rw [e7]
    exact h.flags p hp
  · intro q hq
    obtain ⟨f, r1, r2⟩ := e8 (some q) (List.mem_map.2 ⟨q, hq, rfl⟩)
    exact ⟨f, r1, r2 q rfl⟩
  · intro q hq
    obtain ⟨f, r1, r2⟩ := e9 (some q) (List.mem_map.2 ⟨q, hq, rfl⟩)
    exact ⟨f, r1, r2 q rfl⟩

end Verif.EndToEnd
