import Verif.Smooth.Lemmas

/-!
# Results at neighbouring waiting times: property C143
-/

set_option linter.dupNamespace false
set_option linter.unusedSectionVars false

namespace Verif.Smooth

open Verif.TempNet Verif.Trans Verif.Flow Verif.EndToEnd Verif.Decay Verif.Autocov Verif.Average Verif.Noise Verif.Partition
  Verif.Louvain Finset

variable {L : Type} [LinearOrder L]

/-- All contacts take place between `a` and `b`. -/
def Between (evs : List (Event L ℝ)) (a b : ℝ) : Prop := ∀ e ∈ evs, a ≤ e.start ∧ e.stop ≤ b

theorem span_le {evs : List (Event L ℝ)} (h : GoodContacts evs) {times : List ℝ} (ht : TimesOf evs times) {a b : ℝ}
    (hab : Between evs a b) : at' times (times.length - 1) - at' times 0 ≤ b - a := by
  have hpos : 0 < times.length := by
    obtain ⟨e, he⟩ := List.exists_mem_of_ne_nil _ h.nonempty
    exact List.length_pos_of_mem ((ht.2 e.start).2 ⟨e, he, .inl rfl⟩)
  have hin : ∀ t ∈ times, a ≤ t ∧ t ≤ b := by
    intro t htm
    obtain ⟨e, he, rfl | rfl⟩ := (ht.2 t).1 htm
    · exact ⟨(hab e he).1, (h.lasting e he).le.trans (hab e he).2⟩
    · exact ⟨(hab e he).1.trans (h.lasting e he).le, (hab e he).2⟩
  have h1 := (hin _ (mem_times (times := times) (i := 0) hpos)).1
  have h2 := (hin _ (mem_times (times := times) (i := times.length - 1) (by omega))).2
  linarith

/-- **C143**: with another waiting time, the share of the walkers from a node that end elsewhere
changes by at most the length of the record times the difference of the rates; the distance of the rows of the
transition matrices is at most twice that. -/
theorem C143_transitions {evs : List (Event L ℝ)} (h : GoodContacts evs) {nodes : List L} (hn : NodesOf evs nodes) {a b : ℝ}
    (hab : Between evs a b) (sf sf' : Nat → Bool) {scale scale' : ℝ} (hs : 0 < scale) (hs' : 0 < scale') (reverse : Bool) :
    ∃ T T', computedTransition sf evs scale reverse = some T ∧ computedTransition sf' evs scale' reverse = some T' ∧
      ∀ i < nodes.length, rowDist nodes.length T T' i ≤ 2 * (b - a) * |1 / scale - 1 / scale'| := by
  obtain ⟨T, hT, e⟩ := computedTransition_spec h sf hs reverse
  obtain ⟨T', hT', e'⟩ := computedTransition_spec h sf' hs' reverse
  refine ⟨T, T', hT, hT', fun i hi => ?_⟩
  rw [← nodes_unique hn] at e e'
  have ht := timesOf_spec evs
  have hc := TimesOf.covers ht
  have hW := walk_exists (rate := 1 / scale) (covers_grid hc nodes) reverse
  have hW' := walk_exists (rate := 1 / scale') (covers_grid hc nodes) reverse
  have h0 : at' (timesOf (ofEvents evs).events) 0 ≤ at' (timesOf (ofEvents evs).events) ((timesOf (ofEvents evs).events).length - 1) :=
    grid_mono (covers_grid hc nodes).mono (Nat.zero_le _) le_rfl
  rw [rowDist_congr (e.trans (walkOver_eq ht le_rfl le_rfl hW)) (e'.trans (walkOver_eq ht le_rfl le_rfl hW')) hi]
  have hb := span_le h ht hab
  refine (walk_rates hc (by positivity) (by positivity) hW hW' (by cases reverse <;> simp [h0]) (by cases reverse <;> simp [h0]) hi).trans ?_
  calc 2 * |1 / scale - 1 / scale'| * _ ≤ 2 * |1 / scale - 1 / scale'| * (b - a) :=
        mul_le_mul_of_nonneg_left hb (by positivity)
    _ = _ := by ring

theorem uniform_pos {evs : List (Event L ℝ)} (h : GoodContacts evs) {nodes : List L} (hn : NodesOf evs nodes) :
    (∀ i < nodes.length, 0 ≤ (fun _ : Nat => 1 / (nodes.length : ℝ)) i) ∧
      ∑ i ∈ range nodes.length, (fun _ : Nat => 1 / (nodes.length : ℝ)) i = 1 := by
  have hpos : 0 < nodes.length := by rw [nodes_unique hn]; exact nodes_pos h.nonempty
  refine ⟨fun i _ => by positivity, ?_⟩
  rw [sum_const, card_range, nsmul_eq_mul]
  have : (nodes.length : ℝ) ≠ 0 := by exact_mod_cast hpos.ne'
  field_simp

/-- The mean over the times of covariances that are close. -/
theorem mean_close {evs : List (Event L ℝ)} (h : GoodContacts evs) {nodes : List L} (hn : NodesOf evs nodes) {times : List ℝ}
    (ht : TimesOf evs times) {r r' : ℝ} (hr : 0 ≤ r) (hr' : 0 ≤ r') {reverse : Bool} {P P' : ℝ → Mat ℝ}
    (hW : Walk nodes.length r (gen evs nodes) (at' times 0) (at' times (times.length - 1)) reverse P)
    (hW' : Walk nodes.length r' (gen evs nodes) (at' times 0) (at' times (times.length - 1)) reverse P') :
    totalDist nodes.length
        (fun i j => lowerSum (at' times) (times.length - 1) reverse (fun u => covAt nodes.length (fun _ => 1 / (nodes.length : ℝ)) (P u) i j) /
          (at' times (times.length - 1) - at' times 0))
        (fun i j => lowerSum (at' times) (times.length - 1) reverse (fun u => covAt nodes.length (fun _ => 1 / (nodes.length : ℝ)) (P' u) i j) /
          (at' times (times.length - 1) - at' times 0)) ≤
      6 * |r - r'| * (at' times (times.length - 1) - at' times 0) := by
  have hc := TimesOf.covers ht
  have hG := covers_grid hc nodes
  obtain ⟨hp0, hp1⟩ := uniform_pos h hn
  have hlap : ∀ u, Lap nodes.length (gen evs nodes u) := fun _ => walkLaplacian_lap _ _
  have hin : ∀ k ≤ times.length - 1, at' times 0 ≤ at' times k ∧ at' times k ≤ at' times (times.length - 1) := fun k hk =>
    ⟨grid_mono hG.mono (Nat.zero_le _) hk, grid_mono hG.mono hk le_rfl⟩
  set D := at' times (times.length - 1) - at' times 0 with hD
  have hDpos : 0 < D := sub_pos.2 (ends_lt h ht)
  have hκ : ∀ k ≤ times.length - 1, totalDist nodes.length (covAt nodes.length (fun _ => 1 / (nodes.length : ℝ)) (P (at' times k)))
      (covAt nodes.length (fun _ => 1 / (nodes.length : ℝ)) (P' (at' times k))) ≤ 3 * (2 * |r - r'| * D) := fun k hk =>
    covAt_close hp0 hp1 (walk_stoch hr hlap hG hW (hin k hk).1 (hin k hk).2)
      (walk_stoch hr' hlap hG hW' (hin k hk).1 (hin k hk).2)
      fun i hi => walk_rates hc hr hr' hW hW' (hin k hk).1 (hin k hk).2 hi
  have hM : ∀ k ≤ times.length - 1, totalDist nodes.length (covAt nodes.length (fun _ => 1 / (nodes.length : ℝ)) (P' (at' times k)))
      (fun _ _ => 0) ≤ 2 := fun k hk => covAt_small hp0 hp1 (walk_stoch hr' hlap hG hW' (hin k hk).1 (hin k hk).2)
  have hsum := lowerSum_close (n := nodes.length) (ε := 0) (c := fun u => covAt nodes.length (fun _ => 1 / (nodes.length : ℝ)) (P u))
    (c' := fun u => covAt nodes.length (fun _ => 1 / (nodes.length : ℝ)) (P' u)) (τ := at' times) (τ' := at' times)
    (N := times.length - 1) hG.mono (by simp) reverse hκ hM
  refine (totalDist_div hDpos hDpos).trans ?_
  rw [sub_self, abs_zero, zero_div, mul_zero, add_zero, div_le_iff₀ hDpos]
  refine hsum.trans (le_of_eq ?_)
  ring

/-- **C143**, covariance.  The covariance of the flow that is clustered changes in total by at most
six times the length of the record times the difference of the rates. -/
theorem C143_covariance {evs : List (Event L ℝ)} (h : GoodContacts evs) {nodes : List L} (hn : NodesOf evs nodes) {a b : ℝ}
    (hab : Between evs a b) (sf sf' : Nat → Bool) {scale scale' : ℝ} (hs : 0 < scale) (hs' : 0 < scale') (reverse : Bool) :
    ∃ S S', computedFlow sf evs scale reverse = some S ∧ computedFlow sf' evs scale' reverse = some S' ∧
      totalDist nodes.length S S' ≤ 6 * (b - a) * |1 / scale - 1 / scale'| := by
  obtain ⟨S, hc, hE⟩ := computedFlow_spec h sf hs reverse
  obtain ⟨S', hc', hE'⟩ := computedFlow_spec h sf' hs' reverse
  rw [← nodes_unique hn] at hE hE'
  refine ⟨S, S', hc, hc', ?_⟩
  have ht := timesOf_spec evs
  have hcov := TimesOf.covers ht
  have hW := walk_exists (rate := 1 / scale) (covers_grid hcov nodes) reverse
  have hW' := walk_exists (rate := 1 / scale') (covers_grid hcov nodes) reverse
  rw [totalDist_congr (hE.trans fun i hi j hj => flowCov_entry ht hW hi hj) (hE'.trans fun i hi j hj => flowCov_entry ht hW' hi hj)]
  refine (mean_close h hn ht (by positivity) (by positivity) hW hW').trans ?_
  calc 6 * |1 / scale - 1 / scale'| * _ ≤ 6 * |1 / scale - 1 / scale'| * (b - a) :=
        mul_le_mul_of_nonneg_left (span_le h ht hab) (by positivity)
    _ = _ := by ring

/-- **C143**, stability.  The flow stability of no partition changes by more. -/
theorem C143_stability {evs : List (Event L ℝ)} (h : GoodContacts evs) {nodes : List L} (hn : NodesOf evs nodes) {a b : ℝ}
    (hab : Between evs a b) (sf sf' : Nat → Bool) {scale scale' : ℝ} (hs : 0 < scale) (hs' : 0 < scale') (reverse : Bool) :
    ∃ S S', computedFlow sf evs scale reverse = some S ∧ computedFlow sf' evs scale' reverse = some S' ∧
      ∀ p : Part, IsPartition nodes.length p.clusters →
        |stability S p - stability S' p| ≤ 6 * (b - a) * |1 / scale - 1 / scale'| := by
  obtain ⟨S, S', hc, hc', hb⟩ := C143_covariance h hn hab sf sf' hs hs' reverse
  exact ⟨S, S', hc, hc', fun p hp => (stability_close hp S S').trans hb⟩

/-- **C143**, ranking.  A partition that is clearly more stable than another at one waiting time is
so at all neighbouring waiting times. -/
theorem C143_ranking {evs : List (Event L ℝ)} (h : GoodContacts evs) {nodes : List L} (hn : NodesOf evs nodes) {a b : ℝ}
    (hab : Between evs a b) (sf sf' : Nat → Bool) {scale scale' : ℝ} (hs : 0 < scale) (hs' : 0 < scale') (reverse : Bool) :
    ∃ S S', computedFlow sf evs scale reverse = some S ∧ computedFlow sf' evs scale' reverse = some S' ∧
      ∀ p q : Part, IsPartition nodes.length p.clusters → IsPartition nodes.length q.clusters →
        stability S q + 12 * (b - a) * |1 / scale - 1 / scale'| < stability S p → stability S' q < stability S' p := by
  obtain ⟨S, S', hc, hc', hb⟩ := C143_stability h hn hab sf sf' hs hs' reverse
  refine ⟨S, S', hc, hc', fun p q hp hq hpq => ?_⟩
  have h1 := (abs_le.1 (hb p hp)).2
  have h2 := (abs_le.1 (hb q hq)).1
  linarith

theorem lowerSum_const (τ : ℕ → ℝ) (N : ℕ) (reverse : Bool) (c : ℝ) : lowerSum τ N reverse (fun _ => c) = (τ N - τ 0) * c := by
  unfold lowerSum
  rw [← sum_mul, sum_gaps]

/-- **C143**, long waiting times.  When the waiting time is long compared with the record, hardly
any walker moves: the flow stability of a partition is close to one minus the sum of the squared
shares of the nodes in its clusters, its largest possible value. -/
theorem C143_slow {evs : List (Event L ℝ)} (h : GoodContacts evs) {nodes : List L} (hn : NodesOf evs nodes) {a b : ℝ}
    (hab : Between evs a b) (sf : Nat → Bool) {scale : ℝ} (hs : 0 < scale) (reverse : Bool) :
    ∃ T S, computedTransition sf evs scale reverse = some T ∧ computedFlow sf evs scale reverse = some S ∧
      (∀ i < nodes.length, rowDist nodes.length T (fun i j => if i = j then 1 else 0) i ≤ 2 * (b - a) / scale) ∧
      ∀ p : Part, IsPartition nodes.length p.clusters →
        |stability S p - (1 - (p.clusters.map fun c => ((c.card : ℝ) / nodes.length) ^ 2).sum)| ≤ 6 * (b - a) / scale := by
  obtain ⟨T, hT, e⟩ := computedTransition_spec h sf hs reverse
  obtain ⟨S, hc, hE⟩ := computedFlow_spec h sf hs reverse
  rw [← nodes_unique hn] at e hE
  have ht := timesOf_spec evs
  have hcov := TimesOf.covers ht
  have hW := walk_exists (rate := 1 / scale) (covers_grid hcov nodes) reverse
  have hW0 := walk_still (evs := evs) (nodes := nodes) (at' (timesOf (ofEvents evs).events) 0)
    (at' (timesOf (ofEvents evs).events) ((timesOf (ofEvents evs).events).length - 1)) reverse
  have h0 : at' (timesOf (ofEvents evs).events) 0 ≤ at' (timesOf (ofEvents evs).events) ((timesOf (ofEvents evs).events).length - 1) :=
    grid_mono (covers_grid hcov nodes).mono (Nat.zero_le _) le_rfl
  have hrate : |1 / scale - 0| = 1 / scale := by rw [sub_zero, abs_of_pos (by positivity)]
  refine ⟨T, S, hT, hc, fun i hi => ?_, fun p hp => ?_⟩
  · have := walk_rates hcov (by positivity) le_rfl hW hW0 (u := if reverse then at' (timesOf (ofEvents evs).events) 0 else
      at' (timesOf (ofEvents evs).events) ((timesOf (ofEvents evs).events).length - 1))
      (by cases reverse <;> simp [h0]) (by cases reverse <;> simp [h0]) hi
    rw [rowDist_congr (e.trans (walkOver_eq ht le_rfl le_rfl hW)) (EqOn.refl _ _) hi]
    refine this.trans ?_
    rw [hrate]
    calc 2 * (1 / scale) * _ ≤ 2 * (1 / scale) * (b - a) := mul_le_mul_of_nonneg_left (span_le h ht hab) (by positivity)
      _ = _ := by ring
  · have hm := mean_close h hn ht (by positivity) le_rfl hW hW0
    have hD : at' (timesOf (ofEvents evs).events) ((timesOf (ofEvents evs).events).length - 1) - at' (timesOf (ofEvents evs).events) 0 ≠ 0 :=
      (sub_pos.2 (ends_lt h ht)).ne'
    simp only [lowerSum_const] at hm
    simp only [mul_div_cancel_left₀ _ hD] at hm
    obtain ⟨hp0, hp1⟩ := uniform_pos h hn
    have hd : Distribution nodes.length (fun _ : Nat => 1 / (nodes.length : ℝ)) := ⟨hp0, hp1⟩
    have hst := stability_eye hd hp
    have hshare : ∀ c : Finset Nat, share (fun _ : Nat => 1 / (nodes.length : ℝ)) c = (c.card : ℝ) / nodes.length := by
      intro c
      simp [share, div_eq_mul_inv]
    simp only [hshare] at hst
    rw [← hst]
    refine (stability_close hp _ _).trans ?_
    rw [totalDist_congr (hE.trans fun i hi j hj => flowCov_entry ht hW hi hj) (EqOn.refl _ _)]
    refine hm.trans ?_
    rw [hrate]
    calc 6 * (1 / scale) * _ ≤ 6 * (1 / scale) * (b - a) := mul_le_mul_of_nonneg_left (span_le h ht hab) (by positivity)
      _ = _ := by ring

/-! ## The hypotheses can be met -/

example : GoodContacts ([⟨1, 2, 0, 1⟩, ⟨2, 3, 1, 3⟩, ⟨3, 1, 2, 4⟩] : List (Event Nat ℝ)) ∧
    NodesOf ([⟨1, 2, 0, 1⟩, ⟨2, 3, 1, 3⟩, ⟨3, 1, 2, 4⟩] : List (Event Nat ℝ)) [1, 2, 3] ∧
    Between ([⟨1, 2, 0, 1⟩, ⟨2, 3, 1, 3⟩, ⟨3, 1, 2, 4⟩] : List (Event Nat ℝ)) 0 4 := by
  refine ⟨⟨by simp, ?_, by simp, by simp⟩, ⟨by simp, ?_⟩, ?_⟩
  · simp; norm_num
  · intro l
    simp
    omega
  · simp [Between]; norm_num

end Verif.Smooth
