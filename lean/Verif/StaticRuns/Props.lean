import Verif.StaticRuns.Spec
import Verif.NviReport.Compare

/-!
# C149: the static comparison of `run_clusterings`
-/

namespace Verif.StaticRuns

open Verif.Csr Verif.Autocov Verif.Partition Verif.SparseLouvain Verif.StaticSparse Verif.NviReport
open Verif.Trans (Mat eye expm Stoch EqOn)
open Verif.Louvain (Sched Params)
open Verif.Scripts.Cluster (Draw)
open Verif.Static (EigPair strength twoM Weighted walk)

theorem strength_symmetrise (n : Nat) (A : Mat ℝ) (i : Nat) : strength n (symmetrise A) i = meetings n A i / 2 := by
  unfold strength symmetrise meetings
  rw [Finset.sum_div]

theorem share_eq (n : Nat) (A : Mat ℝ) (i : Nat) :
    strength n (symmetrise A) i / twoM n (symmetrise A) = share n A i := by
  have h : twoM n (symmetrise A) = (∑ k ∈ Finset.range n, meetings n A k) / 2 := by
    rw [Finset.sum_div]
    exact Finset.sum_congr rfl fun i _ => strength_symmetrise n A i
  rw [h, strength_symmetrise]
  unfold share
  rw [div_div_div_cancel_right₀ (by norm_num)]

theorem weighted_symmetrise {n : Nat} {A : Mat ℝ} (hA : Weighted n A) : Weighted n (symmetrise A) := fun i hi j hj =>
  div_nonneg (add_nonneg (hA i hi j hj) (hA j hj i hi)) (by norm_num)

theorem walk_symmetrise {n : Nat} {A : Mat ℝ} {i : Nat} (h : 0 < meetings n A i) (j : Nat) :
    walk n (symmetrise A) i j = hop n A i j := by
  unfold walk hop
  rw [strength_symmetrise, if_neg (by positivity)]
  unfold symmetrise
  rw [div_div_div_cancel_right₀ (by norm_num)]

/-- The walk of the model at time one. -/
theorem unitWalk_eq {n : Nat} {A : Mat ℝ} (h : ∀ i < n, 0 < meetings n A i) :
    expm n (fun i j => -1 * (eye i j - walk n (symmetrise A) i j)) = unitWalk n A := by
  apply Verif.Trans.expm_congr
  intro i hi j _
  dsimp only
  rw [walk_symmetrise (h i hi)]
  ring

theorem unitWalk_stoch {n : Nat} {A : Mat ℝ} (hA : Weighted n A) (h : ∀ i < n, 0 < meetings n A i) :
    Stoch n (unitWalk n A) := by
  rw [← unitWalk_eq h]
  refine Verif.Trans.expm_stoch (t := 1) ?_ ?_ (by norm_num)
  · intro i hi
    have hs : ∑ j ∈ Finset.range n, hop n A i j = 1 := by
      unfold hop
      rw [← Finset.sum_div]
      exact div_self (ne_of_gt (h i hi))
    simp only [walk_symmetrise (h i hi)]
    rw [Finset.sum_sub_distrib, hs]
    simp [eye, hi]
  · intro i hi j hj hij
    rw [walk_symmetrise (h i hi)]
    have : 0 ≤ hop n A i j := div_nonneg (add_nonneg (hA i hi j hj) (hA j hj i hi)) (h i hi).le
    simp [eye, hij, this]

/-- What one repetition returns. -/
structure Good (n : Nat) (A : Mat ℝ) (seed : Nat) (d : Draw ℝ) : Prop where
  seed : d.seed = seed
  partition : IsPartition n d.clusters
  nonempty : ∀ cl ∈ d.clusters, cl.Nonempty
  stab : d.stab = stability n A d.clusters
  no_worse : stability n A (singletons n) ≤ d.stab ∨ d.clusters = [Finset.range n]

theorem repetition (eig : Mat ℝ → EigPair ℝ) {n : Nat} (hn : 0 < n) (A : Mat ℝ) (hA : Weighted n A)
    (hmeet : ∀ i < n, 0 < meetings n A i) (T : Csr ℝ) (hT : Stored n (unitWalk n A) T) (par : Params ℝ) (sc : Sched)
    (seed : Nat) : ∃ d, staticRepetition eig n A T par sc seed = .ok d ∧ Good n A seed d := by
  classical
  have hw := weighted_symmetrise hA
  have htot : 0 < ∑ k ∈ Finset.range n, meetings n A k :=
    Finset.sum_pos (fun i hi => hmeet i (Finset.mem_range.1 hi)) ⟨0, Finset.mem_range.2 hn⟩
  have hm : twoM n (symmetrise A) ≠ 0 := by
    have : twoM n (symmetrise A) = (∑ k ∈ Finset.range n, meetings n A k) / 2 := by
      rw [Finset.sum_div]
      exact Finset.sum_congr rfl fun i _ => strength_symmetrise n A i
    rw [this]
    positivity
  have hst : Verif.Static.stationary eig n (symmetrise A) false = .ok (share n A) := by
    rw [Verif.Static.undirected_stationary eig hm]
    congr 1
    funext i
    exact share_eq n A i
  have hd1 : ∑ i ∈ Finset.range n, share n A i = 1 := by
    unfold share
    rw [← Finset.sum_div]
    exact div_self (ne_of_gt htot)
  obtain ⟨f, g⟩ := fit_fromT (p := share n A) hn hT (unitWalk_stoch hA hmeet)
    (fun i hi => div_pos (hmeet i hi) htot) hd1
  have hnr : (fromT T (some (share n A)) (some (share n A))).PT.nrows = n := (nrows_fromT _ _ _).trans hT.rows
  obtain ⟨q, hq, -⟩ := Verif.Louvain.mk'_none (fromT T (some (share n A)) (some (share n A))).PT.nrows false
  have hmk : mkS (fromT T (some (share n A)) (some (share n A))) .none =
      .ok ⟨fromT T (some (share n A)) (some (share n A)), q⟩ := by
    unfold mkS; rw [hq]
  have hss : staticSparse eig n (symmetrise A) T false =
      .ok ⟨fromT T (some (share n A)) (some (share n A)), q⟩ := by
    unfold staticSparse
    rw [hst]
    simp only [hmk]
  have hstab : ∀ p : Part, Consistent p → p.numNodes = n →
      sStability (fromT T (some (share n A)) (some (share n A))) p = stability n A p.clusters := by
    intro p hp hpn
    rw [C69_stability_exact _ _ hp]
    unfold Verif.Louvain.pairStability stability
    rw [hpn]
    refine Finset.sum_congr rfl fun i hi => Finset.sum_congr rfl fun j hj => ?_
    rw [Finset.mem_range] at hi hj
    rw [g.1 i (by rw [hnr]; exact hi) j (by rw [hnr]; exact hj)]
    congr 1
  have hfresh : Fresh (⟨fromT T (some (share n A)) (some (share n A)), q⟩ : SClu ℝ) := hmk
  unfold staticRepetition
  rw [hss]
  simp only
  cases hz : (fromT T (some (share n A)) (some (share n A))).isAllZeros with
  | true =>
    have hcl : sFindLouvain sc par ⟨fromT T (some (share n A)) (some (share n A)), q⟩ =
        .ok (0, removeEmpty ⟨n, [Finset.range n], dictOf [Finset.range n]⟩) := by
      unfold sFindLouvain
      rw [hz, Verif.Louvain.mk'_clusterList, hnr]
      rfl
    have he : (removeEmpty ⟨n, [Finset.range n], dictOf [Finset.range n]⟩).clusters = [Finset.range n] := by
      unfold removeEmpty
      dsimp only
      rw [List.filter_cons_of_pos (by simpa using hn), List.filter_nil]
    have hc : Consistent (removeEmpty ⟨n, [Finset.range n], dictOf [Finset.range n]⟩) :=
      consistent_removeEmpty (Verif.Louvain.isPartition_full _)
    rw [hcl]
    refine ⟨_, rfl, rfl, hc.1, ?_, hstab _ hc rfl, Or.inr he⟩
    rw [he]
    intro cl hcl
    rw [List.mem_singleton] at hcl
    subst hcl
    exact ⟨0, Finset.mem_range.2 hn⟩
  | false =>
    obtain ⟨k, p, h1, h2, h3, h4, h5⟩ := C69_no_worse_partial sc par
      ⟨fromT T (some (share n A)) (some (share n A)), q⟩ f hfresh hz
    obtain ⟨e1, e2, e3⟩ := fresh_part hfresh
    have h3' : p.numNodes = n := h3.trans hnr
    rw [h1]
    refine ⟨_, rfl, rfl, h3' ▸ h2.1, h4, hstab p h2 h3', Or.inl ?_⟩
    dsimp only at e1 e2 e3 h5 ⊢
    rw [hstab q e1 (e2.trans hnr), e3, hnr] at h5
    exact h5

/-- **C149.** For every network of contacts without negative durations in which every node meets someone, all
options, random orders and seeds: the static comparison ends without an exception and returns
one result for each repetition, in order and with its seed.  Each is a partition of the nodes
into clusters that are not empty, reported with the stability of these clusters for walkers on
the network in which the two ends of a contact play the same role; it is at least the
stability of one cluster for each node, unless the result is one cluster with all nodes. -/
theorem C149_repetitions (eig : Mat ℝ → EigPair ℝ) {n : Nat} (hn : 0 < n) (A : Mat ℝ) (hA : Weighted n A)
    (hmeet : ∀ i < n, 0 < meetings n A i) (T : Csr ℝ) (hT : Stored n (unitWalk n A) T) (par : Params ℝ)
    (l : List (Sched × Nat)) :
    ∃ ds, staticRepetitions eig n A T par l = some ds ∧ List.Forall₂ (Good n A) (l.map Prod.snd) ds := by
  induction l with
  | nil => exact ⟨[], rfl, .nil⟩
  | cons a l ih =>
    obtain ⟨sc, seed⟩ := a
    obtain ⟨d, h1, h2⟩ := repetition eig hn A hA hmeet T hT par sc seed
    obtain ⟨ds, h3, h4⟩ := ih
    refine ⟨d :: ds, ?_, .cons h2 h4⟩
    unfold staticRepetitions
    rw [h1]
    simp only [h3]

/-- **C149.** If the source and the target of every contact are exchanged, the static comparison returns the
same results; walkers and stabilities are the same too.  This holds for all matrices and options. -/
theorem C149_direction (eig : Mat ℝ → EigPair ℝ) (n : Nat) (A : Mat ℝ) (T : Csr ℝ) (par : Params ℝ)
    (l : List (Sched × Nat)) :
    staticRepetitions eig n (fun i j => A j i) T par l = staticRepetitions eig n A T par l ∧
      unitWalk n (fun i j => A j i) = unitWalk n A ∧
      ∀ cl, stability n (fun i j => A j i) cl = stability n A cl := by
  have hs : symmetrise (fun i j => A j i) = symmetrise A := by
    funext i j
    unfold symmetrise
    rw [add_comm]
  have hmt : meetings n (fun i j => A j i) = meetings n A := by
    funext i
    unfold meetings
    exact Finset.sum_congr rfl fun j _ => add_comm _ _
  have hwalk : unitWalk n (fun i j => A j i) = unitWalk n A := by
    unfold unitWalk hop
    rw [hmt]
    congr 1
    funext i j
    rw [add_comm]
  refine ⟨?_, hwalk, ?_⟩
  · induction l with
    | nil => rfl
    | cons a l ih =>
      obtain ⟨sc, seed⟩ := a
      unfold staticRepetitions staticRepetition
      rw [hs, ih]
  · intro cl
    unfold stability share
    rw [hmt, hwalk]

/-- **C149.** The unit of the durations does not matter: if all of them are multiplied by the same positive
number, the static comparison returns the same results; walkers and stabilities are the same too. -/
theorem C149_unit (eig : Mat ℝ → EigPair ℝ) (n : Nat) (A : Mat ℝ) {c : ℝ} (hc : 0 < c) (T : Csr ℝ) (par : Params ℝ)
    (l : List (Sched × Nat)) :
    staticRepetitions eig n (fun i j => c * A i j) T par l = staticRepetitions eig n A T par l ∧
      unitWalk n (fun i j => c * A i j) = unitWalk n A ∧
      ∀ cl, stability n (fun i j => c * A i j) cl = stability n A cl := by
  have hmt : ∀ i, meetings n (fun i j => c * A i j) i = c * meetings n A i := by
    intro i
    unfold meetings
    rw [Finset.mul_sum]
    exact Finset.sum_congr rfl fun j _ => by ring
  have hwalk : unitWalk n (fun i j => c * A i j) = unitWalk n A := by
    unfold unitWalk hop
    congr 1
    funext i j
    rw [hmt, ← mul_add, mul_div_mul_left _ _ (ne_of_gt hc)]
  have hshare : share n (fun i j => c * A i j) = share n A := by
    funext i
    unfold share
    simp only [hmt]
    rw [← Finset.mul_sum, mul_div_mul_left _ _ (ne_of_gt hc)]
  have hdeg : ∀ i, Verif.Static.degs n (symmetrise fun i j => c * A i j) i = c * Verif.Static.degs n (symmetrise A) i := by
    intro i
    unfold Verif.Static.degs symmetrise
    rw [Finset.mul_sum]
    exact Finset.sum_congr rfl fun j _ => by ring
  have hst : Verif.Static.stationary eig n (symmetrise fun i j => c * A i j) false =
      Verif.Static.stationary eig n (symmetrise A) false := by
    unfold Verif.Static.stationary
    simp only [hdeg, ← Finset.mul_sum, mul_eq_zero, ne_of_gt hc, false_or, Bool.false_eq_true, if_false,
      mul_div_mul_left _ _ (ne_of_gt hc)]
  refine ⟨?_, hwalk, fun cl => ?_⟩
  · induction l with
    | nil => rfl
    | cons a l ih =>
      obtain ⟨sc, seed⟩ := a
      unfold staticRepetitions staticRepetition staticSparse
      rw [hst, ih]
  · unfold stability
    rw [hshare, hwalk]

/-! ### Example -/

/-- A path of three nodes; each contact is recorded in one direction only. -/
def oneWay : Mat ℝ := fun i j => if i + 1 = j then 1 else 0

/-- Non-vacuity of `C149_repetitions`: the path; node 1 has half of the contact time. -/
example : Weighted 3 oneWay ∧ (∀ i < 3, 0 < meetings 3 oneWay i) ∧
    Stored 3 (unitWalk 3 oneWay) (store 3 (unitWalk 3 oneWay)) ∧ share 3 oneWay 1 = 1 / 2 ∧
    hop 3 oneWay 1 0 = 1 / 2 := by
  have h0 : meetings 3 oneWay 0 = 1 := by simp [meetings, oneWay, Finset.sum_range_succ]
  have h1 : meetings 3 oneWay 1 = 2 := by simp [meetings, oneWay, Finset.sum_range_succ]; norm_num
  have h2 : meetings 3 oneWay 2 = 1 := by simp [meetings, oneWay, Finset.sum_range_succ]
  refine ⟨?_, ?_, stored_store _ _, ?_, ?_⟩
  · intro i _ j _
    unfold oneWay
    split <;> norm_num
  · intro i hi
    interval_cases i
    · rw [h0]; norm_num
    · rw [h1]; norm_num
    · rw [h2]; norm_num
  · unfold share
    rw [Finset.sum_range_succ, Finset.sum_range_succ, Finset.sum_range_succ, Finset.sum_range_zero, h0, h1, h2]
    norm_num
  · unfold hop
    rw [h1]
    simp [oneWay]

end Verif.StaticRuns
