import Verif.Scales.Search
import Verif.Scales.Walk

/-!
# Long time scales: property C134
-/

set_option linter.dupNamespace false
set_option linter.unusedSectionVars false

namespace Verif.Scales

open Verif.TempNet Verif.Trans Verif.Flow Verif.EndToEnd Verif.Average Verif.Groups Verif.Mirror Verif.Louvain Verif.FlowStability

variable {L : Type} [LinearOrder L]

theorem sum_steps (τ : Nat → ℝ) (c : ℝ) (N : Nat) : ((List.range N).map fun k => (τ (k + 1) - τ k) * c).sum = (τ N - τ 0) * c := by
  induction N with
  | zero => simp
  | succ N ih =>
    rw [List.range_succ, List.map_append, List.sum_append, ih]
    simp
    ring

theorem sum_mul_upper (l : List (ℝ × Mat ℝ)) (f : ℝ × Mat ℝ → ℝ) {c : ℝ} (h0 : ∀ e ∈ l, 0 ≤ e.1) (h : ∀ e ∈ l, f e ≤ c) :
    (l.map fun e => e.1 * f e).sum ≤ (l.map (·.1)).sum * c := by
  induction l with
  | nil => simp
  | cons e l ih =>
    simp only [List.map_cons, List.sum_cons]
    rw [add_mul]
    exact add_le_add (mul_le_mul_of_nonneg_left (h e (by simp)) (h0 e (by simp)))
      (ih (fun e he => h0 e (by simp [he])) fun e he => h e (by simp [he]))

theorem laplacian_diag (n : Nat) (G : Nat → Nat → Prop) (i : Nat) : (walkLaplacian n G i i : ℝ) ≤ 1 := by
  classical
  unfold walkLaplacian
  simp only [if_true]
  split_ifs <;> simp

theorem walkStep_stay {evs : List (Event L ℝ)} {nodes : List L} {times : List ℝ} (ht : times.Pairwise (· < ·)) {scale : ℝ} (hs : 0 < scale)
    {k : Nat} (hk : k < times.length - 1) :
    Stay nodes.length ((times.getD (k + 1) 0 - times.getD k 0) * (1 / scale)) (walkStep evs nodes times scale k) := by
  have hlt : times.getD k 0 < times.getD (k + 1) 0 := by
    rw [List.getD_eq_getElem?_getD, List.getD_eq_getElem?_getD, List.getElem?_eq_getElem (by omega : k + 1 < times.length),
      List.getElem?_eq_getElem (by omega : k < times.length)]
    exact List.pairwise_iff_getElem.1 ht k (k + 1) (by omega) (by omega) (by omega)
  have h0 : 0 ≤ (times.getD (k + 1) 0 - times.getD k 0) * (1 / scale) := mul_nonneg (sub_pos.2 hlt).le (by positivity)
  have hlap := walkLaplacian_lap nodes.length (InContact evs nodes (times.getD k 0))
  refine ⟨evo_stoch hlap h0, fun i hi => ?_⟩
  have := (evo_ge hlap (fun i _ => laplacian_diag _ _ i) h0 hi hi).1
  rwa [if_pos rfl] at this

theorem flowSteps_stay {evs : List (Event L ℝ)} {nodes : List L} {times : List ℝ} (ht : times.Pairwise (· < ·)) {scale : ℝ} (hs : 0 < scale)
    (reverse : Bool) {e : ℝ × Mat ℝ} (he : e ∈ flowSteps nodes.length reverse ((List.range (times.length - 1)).map (walkStep evs nodes times scale))
      times ((List.range (times.length - 1)).map (walkStep evs nodes times scale)).length) :
    Stay nodes.length ((times.getD (times.length - 1) 0 - times.getD 0 0) * (1 / scale)) e.2 := by
  have key : ∀ l : List Nat, l.Sublist (List.range (times.length - 1)) ∨ l.Sublist (List.range (times.length - 1)).reverse →
      Stay nodes.length ((times.getD (times.length - 1) 0 - times.getD 0 0) * (1 / scale)) (prod nodes.length (l.map (walkStep evs nodes times scale))) := by
    intro l hl
    have hm : ∀ k ∈ l, k < times.length - 1 := by
      intro k hk
      rcases hl with hl | hl
      · exact List.mem_range.1 (hl.mem hk)
      · exact List.mem_range.1 (List.mem_reverse.1 (hl.mem hk))
    refine stay_mono (stay_prod _ (fun k => (times.getD (k + 1) 0 - times.getD k 0) * (1 / scale)) l fun k hk => walkStep_stay ht hs (hm k hk)) ?_
    rw [← sum_steps (fun k => times.getD k 0) (1 / scale) (times.length - 1)]
    have hnn : ∀ k < times.length - 1, 0 ≤ (times.getD (k + 1) 0 - times.getD k 0) * (1 / scale) := by
      intro k hk
      refine mul_nonneg (sub_pos.2 ?_).le (by positivity)
      rw [List.getD_eq_getElem?_getD, List.getD_eq_getElem?_getD, List.getElem?_eq_getElem (by omega : k + 1 < times.length),
        List.getElem?_eq_getElem (by omega : k < times.length)]
      exact List.pairwise_iff_getElem.1 ht k (k + 1) (by omega) (by omega) (by omega)
    rcases hl with hl | hl
    · refine List.Sublist.sum_le_sum (hl.map fun k => (times.getD (k + 1) 0 - times.getD k 0) * (1 / scale)) fun x hx => ?_
      obtain ⟨k, hk, rfl⟩ := List.mem_map.1 hx
      exact hnn k (List.mem_range.1 hk)
    · have hr : ((List.range (times.length - 1)).map fun k => (times.getD (k + 1) 0 - times.getD k 0) * (1 / scale)).sum =
          ((List.range (times.length - 1)).reverse.map fun k => (times.getD (k + 1) 0 - times.getD k 0) * (1 / scale)).sum := by
        rw [List.map_reverse, List.sum_reverse]
      rw [hr]
      refine List.Sublist.sum_le_sum (hl.map fun k => (times.getD (k + 1) 0 - times.getD k 0) * (1 / scale)) fun x hx => ?_
      obtain ⟨k, hk, rfl⟩ := List.mem_map.1 hx
      exact hnn k (List.mem_range.1 (List.mem_reverse.1 hk))
  unfold flowSteps at he
  cases reverse
  · simp only [Bool.false_eq_true, if_false] at he
    obtain ⟨k, -, rfl⟩ := List.mem_map.1 he
    dsimp only
    rw [← List.map_take]
    exact key _ (.inl (List.take_sublist _ _))
  · simp only [if_true] at he
    obtain ⟨k, -, rfl⟩ := List.mem_map.1 he
    dsimp only
    rw [← List.map_reverse, ← List.map_take]
    exact key _ (.inr (List.take_sublist _ _))

/-- The duration of the contacts. -/
theorem duration {evs : List (Event L ℝ)} (h : GoodContacts evs) {times : List ℝ} (ht : TimesOf evs times) :
    2 ≤ times.length ∧ ∃ e ∈ evs, ∃ f ∈ evs, times.getD (times.length - 1) 0 - times.getD 0 0 = e.stop - f.start := by
  have h2 : 2 ≤ times.length := by rw [times_unique ht]; exact times_two h
  refine ⟨h2, ?_⟩
  have hle : ∀ x ∈ times, times.getD 0 0 ≤ x ∧ x ≤ times.getD (times.length - 1) 0 := by
    intro x hx
    obtain ⟨k, hk, rfl⟩ := List.getElem_of_mem hx
    rw [List.getD_eq_getElem?_getD, List.getD_eq_getElem?_getD, List.getElem?_eq_getElem (by omega : 0 < times.length),
      List.getElem?_eq_getElem (by omega : times.length - 1 < times.length)]
    have hp := List.pairwise_iff_getElem.1 ht.1
    constructor
    · rcases Nat.eq_zero_or_pos k with rfl | hk0
      · exact le_rfl
      · exact (hp 0 k (by omega) hk hk0).le
    · rcases Nat.lt_or_ge k (times.length - 1) with hk1 | hk1
      · exact (hp k _ hk (by omega) hk1).le
      · have : k = times.length - 1 := by omega
        subst this
        exact le_rfl
  have hm : ∀ k < times.length, times.getD k 0 ∈ times := by
    intro k hk
    rw [List.getD_eq_getElem?_getD, List.getElem?_eq_getElem hk]
    exact List.getElem_mem hk
  obtain ⟨e, he, h1⟩ := (ht.2 _).1 (hm (times.length - 1) (by omega))
  obtain ⟨f, hf, h3⟩ := (ht.2 _).1 (hm 0 (by omega))
  refine ⟨e, he, f, hf, ?_⟩
  have a1 := (hle _ ((ht.2 _).2 ⟨e, he, .inr rfl⟩)).2
  have a2 := (hle _ ((ht.2 _).2 ⟨f, hf, .inl rfl⟩)).1
  have a3 := h.lasting e he
  have a4 := h.lasting f hf
  rcases h1 with h1 | h1 <;> rcases h3 with h3 | h3 <;> linarith

theorem nodes_two {evs : List (Event L ℝ)} (h : GoodContacts evs) {nodes : List L} (hn : NodesOf evs nodes) : 2 ≤ nodes.length := by
  obtain ⟨e, he⟩ := List.exists_mem_of_ne_nil _ h.nonempty
  have h1 := (hn.2 e.src).2 ⟨e, he, .inl rfl⟩
  have h2 := (hn.2 e.tgt).2 ⟨e, he, .inr rfl⟩
  have h3 := h.different e he
  match nodes, h1, h2 with
  | [], h1, _ => simp at h1
  | [x], h1, h2 =>
    simp only [List.mem_singleton] at h1 h2
    exact absurd (h1.trans h2.symm) h3
  | _ :: _ :: _, _, _ => simp

/-- **C134**, covariances.  If the time scale is at least three times the number of labels times the
duration of the data, the covariances of different labels are negative. -/
theorem C134_covariance {evs : List (Event L ℝ)} (h : GoodContacts evs) {nodes : List L} {times : List ℝ} (hn : NodesOf evs nodes)
    (ht : TimesOf evs times) {scale : ℝ} (hlong : ∀ e ∈ evs, ∀ f ∈ evs, 3 * nodes.length * (e.stop - f.start) ≤ scale) (reverse : Bool)
    {i j : Nat} (hi : i < nodes.length) (hj : j < nodes.length) (hij : i ≠ j) :
    flowCov evs nodes times scale reverse i j ≤ -(1 / 5 / (nodes.length : ℝ) ^ 2) := by
  have hn2 := nodes_two h hn
  obtain ⟨h2, e, he, f, hf, hd⟩ := duration h ht
  have hnr : (2 : ℝ) ≤ nodes.length := by exact_mod_cast hn2
  have hs : 0 < scale := by
    have := hlong e he e he
    have := h.lasting e he
    nlinarith
  have hx : 3 * nodes.length * ((times.getD (times.length - 1) 0 - times.getD 0 0) * (1 / scale)) ≤ 1 := by
    rw [hd, ← mul_assoc, mul_one_div, div_le_one hs]
    exact hlong e he f hf
  unfold flowCov meanCov
  set Ms := (List.range (times.length - 1)).map (walkStep evs nodes times scale) with hMs
  have hl : Ms.length = times.length - 1 := by simp [hMs]
  have hw : ∀ e ∈ flowSteps nodes.length reverse Ms times Ms.length, 0 < e.1 := fun e he => (mem_flowSteps ht.1 le_rfl (by omega) he).1
  rw [div_le_iff₀ (sum_pos_of (flowSteps_ne (by omega)) hw), mul_comm]
  exact sum_mul_upper (flowSteps nodes.length reverse Ms times Ms.length)
    (fun e => covAt nodes.length (fun _ => 1 / (nodes.length : ℝ)) e.2 i j) (fun e he => (hw e he).le)
    fun e he => cov_stay (flowSteps_stay ht.1 hs reverse he) hn2 hx hi hj hij

/-- **C134**, the whole analysis.  If a time scale is at least three times the number of labels times
the duration of the data, every label is alone in its community, forward and backward in time, for all
random choices and limits of the search. -/
theorem C134_alone (sf : Nat → Bool) (sc0 : Sched) (par0 : Params ℝ) {w : FWorld (NetObj L) FlowObj} {scales : List Rat}
    (h : Prepared w (scales.map some) none none) (hc : 0 ≤ w.current) {evs : List (Event L ℝ)} (hG : GoodContacts evs)
    (hne : scales ≠ []) (hpos : ∀ q ∈ scales, 0 < q) (kw : Kw L) (hkw : ∀ e, kw ≠ .network e) {nodes : List L}
    (hn : NodesOf evs nodes) (rev : Bool) {q : Rat} (hq : q ∈ scales)
    (hlong : ∀ e ∈ evs, ∀ f ∈ evs, 3 * nodes.length * (e.stop - f.start) ≤ q) :
    ∃ p, Holds (runF (ext sf sc0 par0) w (steps evs kw)) rev q p ∧
      (∀ i < nodes.length, {i} ∈ p.clusters) ∧ ∀ cl ∈ p.clusters, cl.card = 1 := by
  obtain ⟨times, ht⟩ : ∃ times, TimesOf evs times := ⟨_, (C32_time_grid _).1, fun t => by rw [(timesOf_spec evs).2]⟩
  obtain ⟨p, hp, c, k, hm, hl⟩ := C81_search sf sc0 par0 h hc hG hne hpos kw hkw hn ht rev hq
  refine ⟨p, hp, ?_⟩
  have hcc : c.n = nodes.length ∧ c.T = walkOver evs nodes times q rev ∧ c.S = flowCov evs nodes times q rev := by
    unfold mkClu at hm
    split at hm
    · split at hm
      · cases hm
      · cases hm
        exact ⟨rfl, rfl, rfl⟩
    · cases hm
  have hfresh : FreshDefault c := by
    unfold FreshDefault
    rw [hcc.1, hcc.2.1, hcc.2.2]
    exact hm
  have hn2 := nodes_two hG hn
  have hnr : (0 : ℝ) < nodes.length := by exact_mod_cast (by omega : 0 < nodes.length)
  have hcov : ∀ i < nodes.length, ∀ j < nodes.length, i ≠ j → c.S i j ≤ -(1 / 5 / (nodes.length : ℝ) ^ 2) := by
    intro i hi j hj hij
    rw [hcc.2.2]
    exact C134_covariance hG hn ht hlong rev hi hj hij
  have hp5 : 0 < 1 / 5 / (nodes.length : ℝ) ^ 2 := by positivity
  have := C134_search (used sc0 par0 kw).1 (used sc0 par0 kw).2 c hfresh ?_ ?_ k p hl
  · rwa [hcc.1] at this
  · intro hz
    have h1 := hz 0 (by omega) 1 (by omega)
    have h2 := hcov 0 (by omega) 1 (by omega) (by omega)
    rw [abs_of_neg (by linarith), hcc.1] at h1
    have : (1 / 10 ^ 6 : ℝ) / (nodes.length : ℝ) ^ 2 ≤ 1 / 5 / (nodes.length : ℝ) ^ 2 := by
      refine div_le_div_of_nonneg_right ?_ (by positivity)
      norm_num
    linarith
  · intro i hi j hj hij
    rw [hcc.1] at hi hj
    linarith [hcov i hi j hj hij]

/-- The hypotheses are met: three contacts within four units of time, three labels, time scale 36. -/
example : GoodContacts ([⟨1, 2, 0, 1⟩, ⟨2, 3, 1, 3⟩, ⟨3, 1, 2, 4⟩] : List (Event Nat ℝ)) ∧
    NodesOf ([⟨1, 2, 0, 1⟩, ⟨2, 3, 1, 3⟩, ⟨3, 1, 2, 4⟩] : List (Event Nat ℝ)) [1, 2, 3] ∧
    ∀ e ∈ ([⟨1, 2, 0, 1⟩, ⟨2, 3, 1, 3⟩, ⟨3, 1, 2, 4⟩] : List (Event Nat ℝ)),
      ∀ f ∈ ([⟨1, 2, 0, 1⟩, ⟨2, 3, 1, 3⟩, ⟨3, 1, 2, 4⟩] : List (Event Nat ℝ)), 3 * (3 : ℝ) * (e.stop - f.start) ≤ 36 := by
  refine ⟨⟨by simp, ?_, by simp, by simp⟩, ⟨by simp, fun l => by simp; omega⟩, ?_⟩
  · simp
    norm_num
  · simp
    norm_num

end Verif.Scales
