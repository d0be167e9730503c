import Verif.Average.Lemmas
import Verif.Average.Model

/-! # The walk on contacts -/

set_option linter.dupNamespace false
set_option linter.unusedSectionVars false

namespace Verif.Average

open Verif.TempNet Verif.Trans Verif.Flow Verif.EndToEnd Verif.Decay Verif.Autocov Finset MeasureTheory

variable {L : Type} [LinearOrder L]

/-! ## Generator and grid -/

theorem walkLaplacian_lap (n : Nat) (G : Nat → Nat → Prop) : Lap n (walkLaplacian n G) := by
  classical
  constructor
  · intro i hi
    unfold walkLaplacian
    rw [sum_sub_distrib]
    have h1 : ∑ j ∈ range n, (if i = j then (1 : ℝ) else 0) = 1 := by simp [hi]
    rw [h1]
    split_ifs with h0
    · rw [h1, sub_self]
    · rw [← sum_filter, sum_const]
      have : (((range n).filter fun j => G i j).card : ℝ) ≠ 0 := by
        have := h0
        unfold degree at this
        exact_mod_cast this
      unfold degree
      rw [nsmul_eq_mul, mul_one_div]
      convert sub_self (1 : ℝ)
      exact div_self this
  · intro i _ j _ hij
    unfold walkLaplacian
    rw [if_neg hij]
    split_ifs
    · simp
    · simp
    · simp

/-- The times of the contacts as a function. -/
def at' (times : List ℝ) (k : ℕ) : ℝ := times.getD k 0

theorem times_lt {times : List ℝ} (h : times.Pairwise (· < ·)) {i j : ℕ} (hij : i < j) (hj : j < times.length) :
    at' times i < at' times j := by
  unfold at'
  rw [getD_get _ _ hj, getD_get _ _ (by omega)]
  exact List.pairwise_iff_getElem.1 h i j (by omega) hj hij

theorem times_mem {times : List ℝ} {t : ℝ} (h : t ∈ times) : ∃ i < times.length, at' times i = t := by
  obtain ⟨i, hi, e⟩ := List.getElem_of_mem h
  exact ⟨i, hi, by unfold at'; rw [getD_get _ _ hi, e]⟩

theorem mem_times {times : List ℝ} {i : ℕ} (h : i < times.length) : at' times i ∈ times := by
  unfold at'; rw [getD_get _ _ h]; exact List.getElem_mem h

theorem contact_grid {evs : List (Event L ℝ)} {times : List ℝ} (ht : TimesOf evs times) (nodes : List L) :
    Grid nodes.length (fun u => walkLaplacian nodes.length (InContact evs nodes u)) (at' times) (times.length - 1) := by
  have hle : ∀ k < times.length - 1, ∀ t ∈ times, ∀ u, at' times k ≤ u → u < at' times (k + 1) → (t ≤ u ↔ t ≤ at' times k) := by
    intro k hk t htm u h1 h2
    refine ⟨fun h => ?_, fun h => h.trans h1⟩
    obtain ⟨i, hi, rfl⟩ := times_mem htm
    rcases Nat.lt_or_ge k i with hki | hki
    · exfalso
      have : at' times (k + 1) ≤ at' times i := by
        rcases Nat.eq_or_lt_of_le (show k + 1 ≤ i from hki) with rfl | h'
        · exact le_rfl
        · exact (times_lt ht.1 h' hi).le
      exact absurd (this.trans h) (not_le.2 h2)
    · rcases Nat.eq_or_lt_of_le hki with rfl | h'
      · exact le_rfl
      · exact (times_lt ht.1 h' (by omega)).le
  constructor
  · intro k hk
    exact (times_lt ht.1 (Nat.lt_succ_self k) (by omega)).le
  · intro k hk u h1 h2 i _ j _
    have : ∀ a b, InContact evs nodes u a b ↔ InContact evs nodes (at' times k) a b := by
      intro a b
      unfold InContact
      refine exists_congr fun e => and_congr_right fun he => ?_
      rw [hle k hk e.start ((ht.2 _).2 ⟨e, he, .inl rfl⟩) u h1 h2]
      refine and_congr_right fun _ => and_congr_left fun _ => ?_
      have := hle k hk e.stop ((ht.2 _).2 ⟨e, he, .inr rfl⟩) u h1 h2
      rw [← not_le, ← not_le, this]
    show walkLaplacian _ _ i j = walkLaplacian _ _ i j
    rw [walkLaplacian_congr this]

/-! ## The flow covariance as a sum over the event times -/

/-- Weighted sum of the values at the ends of the intervals. -/
noncomputable def lowerSum (τ : ℕ → ℝ) (N : ℕ) (reverse : Bool) (f : ℝ → ℝ) : ℝ :=
  ∑ k ∈ range N, (τ (k + 1) - τ k) * f (if reverse then τ k else τ (k + 1))

theorem flowCov_sum {evs : List (Event L ℝ)} {nodes : List L} {times : List ℝ} (ht : TimesOf evs times) {scale : ℝ}
    {reverse : Bool} {P : ℝ → Mat ℝ}
    (hP : ContactWalk evs nodes scale (at' times 0) (at' times (times.length - 1)) reverse P) (x : Nat → ℝ) :
    form nodes.length (flowCov evs nodes times scale reverse) x =
      lowerSum (at' times) (times.length - 1) reverse (along nodes.length (fun _ => 1 / (nodes.length : ℝ)) x P) /
        (at' times (times.length - 1) - at' times 0) := by
  unfold flowCov
  rw [form_flow]
  set N := times.length - 1 with hN
  set Ms := (List.range N).map (walkStep evs nodes times scale) with hMs
  have hl : Ms.length = N := by simp [hMs]
  have hM : ∀ k (hk : k < Ms.length), EqOn nodes.length Ms[k] (move nodes.length (1 / scale)
      (fun u => walkLaplacian nodes.length (InContact evs nodes u)) (at' times k) (at' times (k + 1))) := by
    intro k hk
    simp only [hMs, List.getElem_map, List.getElem_range]
    exact EqOn.refl _ _
  rw [hl]
  have hG := contact_grid ht nodes
  cases reverse
  · have hg := grid_fwd hG hP hl hM
    simp only [stepOf, Bool.false_eq_true, if_false]
    rw [← sum_gaps]
    refine congrArg₂ (· / ·) (sum_congr rfl fun k hk => ?_) (sum_congr rfl fun k _ => rfl)
    simp only [Bool.false_eq_true, if_false]
    unfold along
    rw [form_congr (covAt_congr _ (hg (k + 1) (by have := mem_range.1 hk; omega))) x]
    rfl
  · have hg := grid_bwd hG hP hl hM
    simp only [stepOf, if_true, hl]
    rw [← sum_gaps]
    unfold lowerSum
    simp only [if_true]
    rw [← sum_range_reflect (fun k => (at' times (k + 1) - at' times k) * along nodes.length _ x P (at' times k)),
      ← sum_range_reflect (fun k => at' times (k + 1) - at' times k)]
    refine congrArg₂ (· / ·) (sum_congr rfl fun k hk => ?_) (sum_congr rfl fun k hk => ?_)
    · have hk := mem_range.1 hk
      unfold along
      rw [form_congr (covAt_congr _ (hg (k + 1) (by omega))) x]
      rw [show N - 1 - k + 1 = N - k from by omega, show N - 1 - k = N - (k + 1) from by omega,
        show N - k - 1 = N - (k + 1) from by omega]
      rfl
    · have hk := mem_range.1 hk
      rw [show N - 1 - k + 1 = N - k from by omega, show N - 1 - k = N - k - 1 from by omega]
      rfl

theorem uniform_nonneg (n : Nat) : ∀ i < n, (0 : ℝ) ≤ (fun _ : Nat => 1 / (n : ℝ)) i := fun _ _ => by positivity

/-- The direction in which the values fall. -/
theorem along_mono {evs : List (Event L ℝ)} {nodes : List L} {times : List ℝ} (ht : TimesOf evs times) {scale : ℝ}
    (hs : 0 < scale) {reverse : Bool} {P : ℝ → Mat ℝ}
    (hP : ContactWalk evs nodes scale (at' times 0) (at' times (times.length - 1)) reverse P) (x : Nat → ℝ) :
    if reverse then MonotoneOn (along nodes.length (fun _ => 1 / (nodes.length : ℝ)) x P)
      (Set.Icc (at' times 0) (at' times (times.length - 1)))
    else AntitoneOn (along nodes.length (fun _ => 1 / (nodes.length : ℝ)) x P)
      (Set.Icc (at' times 0) (at' times (times.length - 1))) := by
  have hr : 0 ≤ 1 / scale := by positivity
  cases reverse
  · exact along_fwd hr (fun _ => walkLaplacian_lap _ _) (contact_grid ht nodes) (uniform_nonneg _) hP x
  · exact along_bwd hr (fun _ => walkLaplacian_lap _ _) (contact_grid ht nodes) (uniform_nonneg _) hP x

/-- Sums at the ends of the intervals and the integral. -/
theorem lowerSum_bounds {τ : ℕ → ℝ} {N : ℕ} (h : ∀ k < N, τ k ≤ τ (k + 1)) {reverse : Bool} {f : ℝ → ℝ}
    (hf : if reverse then MonotoneOn f (Set.Icc (τ 0) (τ N)) else AntitoneOn f (Set.Icc (τ 0) (τ N))) {gap : ℝ}
    (hg : ∀ k < N, τ (k + 1) - τ k ≤ gap) :
    lowerSum τ N reverse f ≤ ∫ u in (τ 0)..(τ N), f u ∧
      ∫ u in (τ 0)..(τ N), f u ≤ lowerSum τ N reverse f +
        gap * (f (if reverse then τ N else τ 0) - f (if reverse then τ 0 else τ N)) := by
  unfold lowerSum
  cases reverse
  · simp only [Bool.false_eq_true, if_false] at hf ⊢
    have h1 := integral_bounds h hf
    exact ⟨h1.1, h1.2.trans (gap_bound h hf hg)⟩
  · simp only [if_true] at hf ⊢
    have hf' : AntitoneOn (fun u => -f u) (Set.Icc (τ 0) (τ N)) := hf.neg
    have h1 := integral_bounds h hf'
    have h2 := gap_bound h hf' hg
    simp only [mul_neg, sum_neg_distrib, intervalIntegral.integral_neg] at h1 h2
    constructor
    · linarith [h1.2]
    · linarith [h1.1]

/-- A finer grid with the same ends has a larger sum. -/
theorem lowerSum_finer {τ τ' : ℕ → ℝ} {N N' : ℕ} (h' : ∀ k < N', τ' k ≤ τ' (k + 1)) {reverse : Bool}
    {f : ℝ → ℝ}
    (hf : if reverse then MonotoneOn f (Set.Icc (τ' 0) (τ' N')) else AntitoneOn f (Set.Icc (τ' 0) (τ' N')))
    {φ : ℕ → ℕ} (hφ0 : φ 0 = 0) (hφN : φ N = N') (hm : ∀ k < N, φ k ≤ φ (k + 1))
    (hτ : ∀ k ≤ N, τ k = τ' (φ k)) : lowerSum τ N reverse f ≤ lowerSum τ' N' reverse f := by
  have hφle : ∀ k ≤ N, φ k ≤ N' := by
    have : ∀ d k, k + d = N → φ k ≤ N' := by
      intro d
      induction d with
      | zero => intro k hk; rw [show k = N from by omega, hφN]
      | succ d ih => intro k hk; exact (hm k (by omega)).trans (ih (k + 1) (by omega))
    exact fun k hk => this (N - k) k (by omega)
  have hin : ∀ l ≤ N', τ' l ∈ Set.Icc (τ' 0) (τ' N') := fun l hl =>
    ⟨grid_mono h' (by omega) hl, grid_mono h' hl le_rfl⟩
  have key : ∀ m ≤ N, lowerSum τ m reverse f ≤ lowerSum τ' (φ m) reverse f := by
    intro m hmN
    induction m with
    | zero => rw [hφ0]; exact le_rfl
    | succ m ih =>
      have ih := ih (by omega)
      have hle := hm m (by omega)
      have hb := hφle (m + 1) hmN
      unfold lowerSum at ih ⊢
      rw [sum_range_succ, ← sum_range_add_sum_Ico _ hle]
      refine add_le_add ih ?_
      rw [hτ m (by omega), hτ (m + 1) hmN]
      set v := f (if reverse then τ' (φ m) else τ' (φ (m + 1))) with hv
      have hsum : (τ' (φ (m + 1)) - τ' (φ m)) * v = ∑ l ∈ Ico (φ m) (φ (m + 1)), (τ' (l + 1) - τ' l) * v := by
        rw [← sum_mul, sum_Ico_sub τ' hle]
      rw [hsum]
      refine sum_le_sum fun l hl => ?_
      have hl := mem_Ico.1 hl
      refine mul_le_mul_of_nonneg_left ?_ (sub_nonneg.2 (h' l (by omega)))
      cases reverse
      · simp only [Bool.false_eq_true, if_false] at hf hv ⊢
        rw [hv]
        exact hf (hin _ (by omega)) (hin _ hb) (grid_mono h' (by omega) hb)
      · simp only [if_true] at hf hv ⊢
        rw [hv]
        exact hf (hin _ (by omega)) (hin _ (by omega)) (grid_mono h' hl.1 (by omega))
  have := key N le_rfl
  rwa [hφN] at this

/-! ## What the code computes -/

theorem computedFlow_spec {evs : List (Event L ℝ)} (h : GoodContacts evs) (sf : Nat → Bool) {scale : ℝ} (hs : 0 < scale)
    (reverse : Bool) : ∃ S, computedFlow sf evs scale reverse = some S ∧
      EqOn (allLabels evs).length S (flowCov evs (allLabels evs) (timesOf (ofEvents evs).events) scale reverse) := by
  obtain ⟨Lp, hL, hM⟩ := mats_spec h sf
  have hn := numNodes_eq evs
  obtain ⟨hst, hW⟩ := hM scale hs
  have h2 := times_two h
  have hinc := (C32_time_grid (ofEvents evs).events).1
  obtain ⟨ts, hts⟩ : ∃ ts, ts = timesOf (ofEvents evs).events := ⟨_, rfl⟩
  rw [← hts] at hst hW h2 hinc ⊢
  obtain ⟨Ms, hMs⟩ : ∃ Ms, Ms = interMats (allLabels evs).length (expm (allLabels evs).length) ts Lp (1 / scale) false :=
    ⟨_, rfl⟩
  rw [← hMs] at hst hW
  have hlen : Ms.length = ts.length - 1 := by rw [hW.length_eq, List.length_map, List.length_range]
  have hne : Ms ≠ [] := List.length_pos_iff.1 (by omega)
  have hlen' : ts.length = Ms.length + 1 := by omega
  unfold computedFlow
  simp only [hL]
  rw [hn, ← hts, ← hMs]
  set inp : Input ℝ := ⟨(allLabels evs).length, false, some (.inter Ms), none, some ts, none, reverse, 1 / 10 ^ 8, false, Real.sqrt⟩ with hinp
  have hreg : Regular inp Ms ts := by
    refine ⟨rfl, rfl, hne, hst, hinc, hlen', uniform_dist (nodes_pos h.nonempty), ?_⟩
    intro hsp
    cases hsp
  obtain ⟨o, J, ho, -, hJ, T, hc⟩ := C47_whole_time hreg rfl
  simp only [ho, hc]
  refine ⟨J, rfl, ?_⟩
  intro i hi j hj
  rw [hJ i hi j hj]
  have he := eqOn_flowSteps (n := (allLabels evs).length) (p := fun _ => 1 / ((allLabels evs).length : ℝ)) (reverse := reverse)
    (ts := ts) (m := Ms.length) hW i hi j hj
  refine he.trans ?_
  unfold flowCov
  rw [hW.length_eq]

end Verif.Average
