import Verif.Louvain.Lemmas
import Mathlib.Data.Rat.Cast.Order
import Mathlib.Algebra.Order.Ring.Rat

/-!
# C26 to C30, C53, C54: dense Louvain clustering
-/

namespace Verif.Louvain

open Verif.Partition

variable {K : Type} [Field K] [LinearOrder K] [IsStrictOrderedRing K]

/-! ### Small example used to show that hypotheses can be met -/

/-- A listing order of sets of cluster indices. -/
def exListing (s : Finset Int) : List Int :=
  ((List.range (2 * s.sup Int.natAbs + 1)).map
    fun k : Nat => Int.ofNat k - Int.ofNat (s.sup Int.natAbs)).filter (· ∈ s)

/-- A schedule: nodes in increasing order. -/
def exSched : Sched where
  order := fun _ _ n => List.range n
  listing := fun _ _ _ => exListing
  order_perm := fun _ _ _ => List.Perm.refl _
  mem_listing := by
    intro _ _ _ s x
    unfold exListing
    rw [List.mem_filter, List.mem_map]
    constructor
    · intro h
      simpa using h.2
    · intro h
      have hx : x.natAbs ≤ s.sup Int.natAbs := Finset.le_sup h
      refine ⟨⟨(x + ((s.sup Int.natAbs : Nat) : Int)).toNat, ?_, ?_⟩, by simpa using h⟩
      · rw [List.mem_range]
        omega
      · simp only [Int.ofNat_eq_natCast]
        omega

/-- Three nodes; 0 and 1 attract each other, both repel 2. -/
def exS (i j : Nat) : ℚ := if (i = 2) = (j = 2) then 1 else -1

/-- Fully connected transition matrix. -/
def exT (_ _ : Nat) : ℚ := 1 / 3

/-- The clustering of the example with the given clusters. -/
def exClu (cl : List (Finset Nat)) : Clu ℚ :=
  { n := 3, T := exT, S := exS, part := removeEmpty ⟨3, cl, dictOf cl⟩ }

/-- Parameters of the example. -/
def exPar : Params ℚ := { thr := 1 / 10 ^ 15, nMeta := 1000, nSub := 1000 }

/-- Stability reached, if the call succeeds. -/
def reached (S : Nat → Nat → ℚ) (r : Except Err (Nat × Part)) : Option ℚ :=
  match r with
  | .ok (_, p) => some (stability S p)
  | .error _ => none

/-- Exception raised, if any. -/
def raised {α : Type} (r : Except Err α) : Option Err :=
  match r with
  | .ok _ => none
  | .error e => some e

/-! ### C26 -/

/-- **C26.** `compute_stability` is the sum of the covariance over all pairs of nodes in
the same cluster. -/
theorem C26_stability_is_pair_sum (S : Nat → Nat → K) (p : Part) (h : Consistent p) :
    stability S p = pairStability S p := stability_pair S p h.1

/-- **C26.** For every matrix, consistent partition, node and other existing cluster, both
gains are computed without exception and their sum is the exact change of stability. -/
theorem C26_gain_exact (S : Nat → Nat → K) (p : Part) (h : Consistent p) (v ci cf : Nat)
    (hci : At p.clusters ci v) (hcf : cf < p.clusters.length) (hne : cf ≠ ci) :
    ∃ rOut rIn, deltaOut S p v ci = .ok rOut ∧ deltaTo S p v cf = .ok rIn ∧
      rOut + rIn = pairStability S (moveNode p v cf).2 - pairStability S p := by
  obtain ⟨rOut, rIn, h1, h2, h3⟩ := gain_exact S h ((h.2 v ci).2 ⟨ci, rfl, hci⟩) hcf
    (fun he => hne he.symm)
  refine ⟨rOut, rIn, h1, h2, ?_⟩
  rw [← stability_pair S p h.1,
    ← stability_pair S _ (consistent_move (v := v) h (cf := (cf : Int)) (by omega) (by omega)).1, h3]
  ring

/-- **C26.** The compiled sums give the same numbers as the array expressions, whatever
the order in which the nodes of a cluster are listed. -/
theorem C26_compiled_sums (S : Nat → Nat → K) (k : Nat) (c : Finset Nat) (ix : List Nat)
    (hnd : ix.Nodup) (hmem : ∀ v, v ∈ ix ↔ v ∈ c) :
    sumSto S k ix = (∑ j ∈ c, S k j) + (∑ i ∈ c, S i k) + S k k ∧
      sumSout S k ix = -(∑ j ∈ c, S k j) - (∑ i ∈ c, S i k) + S k k :=
  ⟨sumSto_eq S k c ix hnd hmem, sumSout_eq S k c ix hnd hmem⟩

/-- **C26.** The gains are refused exactly when they make no sense: joining a cluster one
is in, leaving a cluster one is not in. -/
theorem C26_gain_refused (S : Nat → Nat → K) (p : Part) (v c : Nat) (hc : c < p.clusters.length) :
    (deltaTo S p v c = .error .valueError ↔ At p.clusters c v) ∧
      (deltaOut S p v c = .error .valueError ↔ ¬ At p.clusters c v) := by
  unfold deltaTo deltaOut
  rw [getCluster_nat hc, at_iff_getD]
  by_cases hm : v ∈ p.clusters.getD c ∅
  · simp [hm, -List.getD_eq_getElem?_getD]
  · simp [hm, -List.getD_eq_getElem?_getD]

/-- Non-vacuity for C26. -/
example : Consistent (exClu [{0, 1}, {2}]).part ∧ At (exClu [{0, 1}, {2}]).part.clusters 0 1 ∧
    1 < (exClu [{0, 1}, {2}]).part.clusters.length := by
  refine ⟨consistent_removeEmpty ?_, ⟨{0, 1}, rfl, by simp⟩, by decide⟩
  exact (isPartition_iff_card (by
    rintro v i ⟨c, hc, hv⟩
    have := List.mem_of_getElem? hc
    simp at this
    rcases this with rfl | rfl <;> simp at hv <;> show v < 3 <;> omega)).2
    ⟨((checkIntegrity_iff ⟨3, [{0, 1}, {2}], fun _ => none⟩).1 rfl).1, rfl⟩

/-! ### C27, C53 -/

/-- **C27.** Whatever the matrix, the partition, the random orders, the threshold and the
limits, the node-moving phase raises nothing, leaves a valid partition of the same
nodes without empty clusters, reports a nonnegative gain, and the reported gain is
exactly the change of stability. -/
theorem C27_phase_exact (sc : Sched) (m : Nat) (thr : K) (nSub : Nat) (c : Clu K)
    (h : Consistent c.part) (hn : c.part.numNodes = c.n) :
    ∃ gain nLoop p', moveNodes sc m thr nSub c (nSub + 1) = .ok (gain, nLoop, p') ∧
      Consistent p' ∧ p'.numNodes = c.n ∧ (∀ cl ∈ p'.clusters, cl.Nonempty) ∧ 0 ≤ gain ∧
      pairStability c.S p' = pairStability c.S c.part + gain := by
  obtain ⟨g, k, p', h1, h2, h3, h4, h5, h6⟩ := moveLoop_spec sc m thr nSub c.S c.T (nSub + 1) 1 1 0 h
    (by omega)
  refine ⟨g, k, p', ?_, h2, h3.trans hn, h6, h4, ?_⟩
  · unfold moveNodes
    rw [← hn, h1, zero_add]
  · rw [← stability_pair _ _ h2.1, ← stability_pair _ _ h.1, h5]

/-- **C53.** Greedy choice: when a node is handled, it ends where none of the clusters of
its neighbours would give a higher stability, only that node can move, only to the cluster
of a neighbour, and the stability does not decrease. -/
theorem C53_greedy_choice (S T : Nat → Nat → K) (p : Part) (h : Consistent p)
    (it : Finset Int → List Int) (hit : ∀ s x, x ∈ it s ↔ x ∈ s) (v : Nat) (hv : v < p.numNodes) :
    ∃ gain p', visit S T p.numNodes it p v = .ok (gain, p') ∧ Consistent p' ∧
      (p' = p ∨ ∃ cf : Nat, cf < p.clusters.length ∧ p' = (moveNode p v cf).2 ∧
        ∃ u < p.numNodes, (0 < T v u ∨ 0 < T u v) ∧ At p.clusters cf u) ∧
      pairStability S p' = pairStability S p + gain ∧ 0 ≤ gain ∧
      ∀ u < p.numNodes, (0 < T v u ∨ 0 < T u v) → ∀ cf : Nat, At p.clusters cf u →
        pairStability S (moveNode p v cf).2 ≤ pairStability S p' := by
  obtain ⟨g, p', h1, h2, h3, h4, h5, h6, h7⟩ := visit_spec S T h it hit hv
  refine ⟨g, p', h1, h2, ?_, ?_, h4, ?_⟩
  · rcases h6 with h6 | ⟨cf, hcf, he, u, hu, hat⟩
    · exact Or.inl h6
    · exact Or.inr ⟨cf, hcf, he, u, Finset.mem_range.1 (Finset.mem_filter.1 hu).1,
        (Finset.mem_filter.1 hu).2, hat⟩
  · rw [← stability_pair _ _ h2.1, ← stability_pair _ _ h.1, h5]
  · intro u hu hT cf hcf
    have hlt := at_lt hcf
    rw [← stability_pair _ _ h2.1,
      ← stability_pair S _ (consistent_move (v := v) h (cf := (cf : Int)) (by omega) (by omega)).1]
    exact h7 u (Finset.mem_filter.2 ⟨Finset.mem_range.2 hu, hT⟩) cf hcf

/-! ### C28 -/

/-- **C28.** For every matrix, partition without empty clusters and valid clustering `mp`
of its clusters, the induced clustering of the original nodes is valid, puts two nodes
together exactly when their clusters are together, and has the stability that `mp` has
in the aggregated network. -/
theorem C28_aggregation_preserves_stability (S : Nat → Nat → K) (og mp : Part)
    (hog : Consistent og) (hne : ∀ c ∈ og.clusters, c.Nonempty) (hpos : 0 < og.numNodes)
    (hmp : Consistent mp) (hn : mp.numNodes = og.clusters.length) :
    ∃ p', updatePart og mp = .ok p' ∧ Consistent p' ∧ p'.numNodes = og.numNodes ∧
      (∀ u v s t, At og.clusters s u → At og.clusters t v →
        (Together p'.clusters u v ↔ Together mp.clusters s t)) ∧
      pairStability (aggS S og.clusters) mp = pairStability S p' := by
  obtain ⟨p', h1, h2, h3, h4, h5⟩ := updatePart_spec hog hne hmp hn hpos
  refine ⟨p', h1, h2, h3, h5, ?_⟩
  rw [← stability_pair _ _ hmp.1, ← stability_pair _ _ h2.1]
  exact stability_induced S hog hmp hn h2 h3 h5

/-- **C28.** The aggregated covariance has one row per cluster, and its entries are the
sums of the covariance over the members. -/
theorem C28_aggregated_matrix (T S : Nat → Nat → K) (p : Part) (mc : Clu K)
    (h : aggregate T S p = .ok mc) :
    mc.n = p.clusters.length ∧ ∀ s t cs ct, p.clusters[s]? = some cs → p.clusters[t]? = some ct →
      mc.S s t = ∑ i ∈ cs, ∑ j ∈ ct, S i j := by
  obtain ⟨h1, h2, _⟩ := aggregate_ok T S h
  refine ⟨h2, fun s t cs ct hs ht => ?_⟩
  rw [h1]
  unfold aggS blockSum
  simp [List.getD_eq_getElem?_getD, hs, ht]

/-- Non-vacuity for C28: a partition of three nodes in two clusters and the default
clustering of two nodes. -/
example : ∃ og mp : Part, Consistent og ∧ (∀ c ∈ og.clusters, c.Nonempty) ∧ 0 < og.numNodes ∧
    Consistent mp ∧ mp.numNodes = og.clusters.length ∧ og.clusters.length = 2 := by
  obtain ⟨og, h1, h2, h3, _, h5⟩ := mk'_dict 3 [(0, 0), (1, 0), (2, 1)] (by decide)
    (by intro v; simp; omega) (by decide) (by decide)
  have hog : og.clusters.length = 2 := by
    have : mk' 3 (.nodeDict [(0, 0), (1, 0), (2, 1)]) false
        = .ok (removeEmpty ⟨3, [{1, 0}, {2}], dictOf [{1, 0}, {2}]⟩) := by rfl
    rw [this] at h1
    injection h1 with h1
    rw [← h1]
    rfl
  obtain ⟨mp, h6, h7, h8, _⟩ := mk'_none 2 false
  exact ⟨og, mp, h2, h5, by omega, h7, by omega, hog⟩

/-! ### C29 -/

/-- **C29, partial.** From the default partition, for every schedule, threshold and limits
and every matrix with a significant entry, whenever the call returns, the object's
partition is valid and its stability is at least that of the start.  Missing: a supplied
partition, a second call, negligible covariances; see the violations below. -/
theorem C29_no_worse_from_default_partial (sc : Sched) (par : Params K) (c : Clu K)
    (hfresh : FreshDefault c) (hS : ¬ sIsZero c.n c.S) (k : Nat) (p : Part)
    (hres : findLouvain sc par c = .ok (k, p)) :
    Consistent p ∧ p.numNodes = c.n ∧ (∀ cl ∈ p.clusters, cl.Nonempty) ∧
      pairStability c.S c.part ≤ pairStability c.S p := by
  unfold FreshDefault mkClu at hfresh
  obtain ⟨q, hq, h1, h2, h3⟩ := mk'_none c.n false
  rw [hq] at hfresh
  split at hfresh
  · rename_i hrows
    injection hfresh with hfresh
    have hpart : c.part = q := by rw [← hfresh]
    unfold findLouvain at hres
    split at hres
    · simp at hres
    · rename_i hn0
      unfold mkClu at hres
      rw [if_pos hrows, hpart, mk'_clusterList] at hres
      have hqe : removeEmpty { numNodes := c.n, clusters := q.clusters, dict := dictOf q.clusters } = q := by
        have := removeEmpty_of_nonempty h1 (by rw [h3]; exact singletons_nonempty _)
        rw [← this]
        unfold removeEmpty
        simp only [h2]
        congr 1 <;> simp
      rw [hqe] at hres
      simp only at hres
      have hlen : q.clusters.length = c.n := by rw [h3]; simp [singletons]
      obtain ⟨a, b, d, e⟩ := metaLoop_spec sc par c.T c.S (par.nMeta + 3) 0 1 false q
        { n := c.n, T := c.T, S := c.S, part := q } h1 (by omega)
        (by rw [h3]; exact singletons_nonempty _)
        (Or.inr ⟨h1, h2, hlen.symm, fun r hr hrc => stability_congr _ _ hrc.1 (by
          intro i hi j hj
          simp only at hr
          rw [h3, aggS_singletons c.S c.n i j (by omega) (by omega)]), rfl⟩) k p hres
      refine ⟨a, b.trans h2, e, ?_⟩
      rw [hpart, ← stability_pair _ _ h1.1, ← stability_pair _ _ a.1]
      exact d
  · simp at hfresh

/-- **C29, partial.** From the default partition and with a threshold below one, the gain
reported by the first node-moving phase is kept: the final stability is at least the
initial one plus that gain. -/
theorem C29_first_gain_kept_partial (sc : Sched) (par : Params K) (c : Clu K)
    (hfresh : FreshDefault c) (hS : ¬ sIsZero c.n c.S) (hthr : par.thr < 1) (k : Nat) (p : Part)
    (hres : findLouvain sc par c = .ok (k, p)) (gain : K) (nl : Nat) (mp : Part)
    (hphase : moveNodes sc 1 par.thr par.nSub c (par.nSub + 1) = .ok (gain, nl, mp)) :
    pairStability c.S c.part + gain ≤ pairStability c.S p := by
  have hvalid := C29_no_worse_from_default_partial sc par c hfresh hS k p hres
  unfold FreshDefault mkClu at hfresh
  obtain ⟨q, hq, h1, h2, h3⟩ := mk'_none c.n false
  rw [hq] at hfresh
  split at hfresh
  · rename_i hrows
    injection hfresh with hfresh
    have hpart : c.part = q := by rw [← hfresh]
    unfold findLouvain at hres
    split at hres
    · simp at hres
    · rename_i hn0
      unfold mkClu at hres
      rw [if_pos hrows, hpart, mk'_clusterList] at hres
      have hqe : removeEmpty { numNodes := c.n, clusters := q.clusters, dict := dictOf q.clusters } = q := by
        have := removeEmpty_of_nonempty h1 (by rw [h3]; exact singletons_nonempty _)
        rw [← this]
        unfold removeEmpty
        simp only [h2]
        congr 1 <;> simp
      rw [hqe] at hres
      simp only at hres
      rw [hfresh] at hres
      have hlen : q.clusters.length = c.n := by rw [h3]; simp [singletons]
      have := metaLoop_first sc par c.T c.S (par.nMeta + 2) 0 1 q c h1 (by omega)
        (by rw [h3]; exact singletons_nonempty _) (by rw [hpart]; exact h1) (by rw [hpart]; exact h2)
        hlen.symm (fun r hr hrc => stability_congr _ _ hrc.1 (by
          intro i hi j hj
          rw [h3, aggS_singletons c.S c.n i j (by omega) (by omega)])) (by rw [hpart]) hthr
        (by omega) gain nl mp hphase k p hres
      rw [hpart, ← stability_pair _ _ h1.1, ← stability_pair _ _ hvalid.1.1]
      exact this
  · simp at hfresh

/-- **C29, partial.** If moreover every row of the transition matrix has a positive sum
(no zero rows), the call does return. -/
theorem C29_returns_partial (sc : Sched) (par : Params K) (c : Clu K) (hfresh : FreshDefault c)
    (hn : 0 < c.n) (hT : ∀ i < c.n, 0 < rowSum c.n c.T i) :
    ∃ k p, findLouvain sc par c = .ok (k, p) := by
  unfold FreshDefault mkClu at hfresh
  obtain ⟨q, hq, h1, h2, h3⟩ := mk'_none c.n false
  rw [hq] at hfresh
  split at hfresh
  · rename_i hrows
    injection hfresh with hfresh
    have hpart : c.part = q := by rw [← hfresh]
    unfold findLouvain
    rw [if_neg (by omega)]
    split
    · rw [mk'_clusterList]
      exact ⟨_, _, rfl⟩
    · unfold mkClu
      rw [if_pos hrows, hpart, mk'_clusterList]
      have hqe : removeEmpty { numNodes := c.n, clusters := q.clusters, dict := dictOf q.clusters } = q := by
        have := removeEmpty_of_nonempty h1 (by rw [h3]; exact singletons_nonempty _)
        rw [← this]
        unfold removeEmpty
        simp only [h2]
        congr 1 <;> simp
      rw [hqe]
      simp only
      have hlen : q.clusters.length = c.n := by rw [h3]; simp [singletons]
      exact metaLoop_total sc par c.T c.S (par.nMeta + 3) 0 1 false q
        { n := c.n, T := c.T, S := c.S, part := q } h1 (by omega)
        (by rw [h3]; exact singletons_nonempty _) (Or.inr ⟨h1, h2, hlen.symm⟩)
        (by rw [h2]; exact hT) (by omega)
  · simp at hfresh

/-- **C29, partial.** When every entry of the covariance is negligible the full partition
is returned; it loses less than two millionths of stability, whatever the start. -/
theorem C29_negligible_covariance_partial (sc : Sched) (par : Params K) (c : Clu K)
    (h : Consistent c.part) (hnum : c.part.numNodes = c.n) (hn : 0 < c.n) (hS : sIsZero c.n c.S) :
    ∃ p, findLouvain sc par c = .ok (0, p) ∧ Consistent p ∧
      (∀ u < c.n, ∀ v < c.n, Together p.clusters u v) ∧
      pairStability c.S c.part - 2 / 10 ^ 6 ≤ pairStability c.S p := by
  have hfull := isPartition_full c.n
  have hcons : Consistent (removeEmpty
      { numNodes := c.n, clusters := [Finset.range c.n], dict := dictOf [Finset.range c.n] }) :=
    consistent_removeEmpty hfull
  refine ⟨_, ?_, hcons, ?_, ?_⟩
  · unfold findLouvain
    rw [if_neg (by omega), if_pos hS, mk'_clusterList]
  · intro u hu v hv
    rw [(removeEmpty_effect _).1]
    exact ⟨0, (at_zero ..).2 (Finset.mem_range.2 hu), (at_zero ..).2 (Finset.mem_range.2 hv)⟩
  · rw [← stability_pair _ _ h.1, ← stability_pair _ _ hcons.1]
    have h1 := abs_le.1 (stability_small hn c.S hS h hnum)
    have h2 := abs_le.1 (stability_small hn c.S hS hcons rfl)
    have : (2 : K) / 10 ^ 6 = 1 / 10 ^ 6 + 1 / 10 ^ 6 := by ring
    linarith [h1.2, h2.1]

/-- **C29, violated.** From the partition {0,1},{2} of stability 5, the call ends with
stability 1: the clusters of the object are mistaken for nodes. -/
theorem C29_supplied_partition_worse :
    ∃ c : Clu ℚ, FreshFrom [{0, 1}, {2}] c ∧ ∃ sc par,
      reached c.S (findLouvain sc par c) = some 1 ∧ stability c.S c.part = 5 := by
  refine ⟨exClu [{0, 1}, {2}], ?_, exSched, exPar, by decide +kernel, by decide +kernel⟩
  unfold FreshFrom mkClu
  rw [if_pos (by decide +kernel), mk'_clusterList]
  rfl

/-- **C29, violated.** Two calls in a row on a new object: the first reaches stability 5,
the second ends with stability 1. -/
theorem C29_second_call_worse :
    ∃ c : Clu ℚ, FreshDefault c ∧ ∃ sc par,
      reached c.S (findLouvain sc par c) = some 5 ∧
      (match findLouvain sc par c with
        | .ok (_, p) => reached c.S (findLouvain sc par { c with part := p })
        | .error _ => none) = some 1 := by
  refine ⟨exClu (singletons 3), ?_, exSched, exPar, by decide +kernel, by decide +kernel⟩
  unfold FreshDefault mkClu
  rw [if_pos (by decide +kernel)]
  rfl

/-- **C29, violated.** A covariance with entries of size 1e-7: the default partition of
stability 2e-7 is replaced by the full one, of stability 0. -/
theorem C29_negligible_covariance_worse :
    ∃ c : Clu ℚ, FreshDefault c ∧ ∃ sc par,
      stability c.S c.part = 2 / 10 ^ 7 ∧ reached c.S (findLouvain sc par c) = some 0 := by
  refine ⟨{ n := 2, T := fun _ _ => 1 / 2, S := fun i j => if i = j then 1 / 10 ^ 7 else -1 / 10 ^ 7,
            part := removeEmpty ⟨2, singletons 2, dictOf (singletons 2)⟩ }, ?_, exSched, exPar,
    by decide +kernel, by decide +kernel⟩
  unfold FreshDefault mkClu
  rw [if_pos (by decide +kernel)]
  rfl

/-- Non-vacuity for C29: the example meets every hypothesis and the gain is strict. -/
example : FreshDefault (exClu (singletons 3)) ∧ ¬ sIsZero 3 exS ∧
    (∀ i < 3, 0 < rowSum 3 exT i) ∧ stability exS (exClu (singletons 3)).part = 3 ∧
    reached exS (findLouvain exSched exPar (exClu (singletons 3))) = some 5 := by
  refine ⟨?_, by decide +kernel, by decide +kernel, by decide +kernel, by decide +kernel⟩
  unfold FreshDefault mkClu
  rw [if_pos (by decide +kernel)]
  rfl

/-! ### C30 -/

/-- **C30.** Whatever the object (even an invalid one), schedule and limits, a node-moving
phase ends, after at most `n_sub_iter_max - 1` sweeps (`n_loop` starts at 1). -/
theorem C30_sweeps_bounded (sc : Sched) (m : Nat) (thr : K) (nSub : Nat) (c : Clu K) :
    moveNodes sc m thr nSub c (nSub + 1) ≠ .error .outOfSteps ∧
      ∀ gain nLoop p, moveNodes sc m thr nSub c (nSub + 1) = .ok (gain, nLoop, p) →
        nLoop - 1 ≤ nSub - 1 := by
  obtain ⟨h1, h2⟩ := moveLoop_steps sc m thr nSub c.S c.T c.n (nSub + 1) 1 1 0 c.part (by omega)
  refine ⟨h1, fun g k p h => ?_⟩
  have := h2 g k p h
  omega

/-- **C30.** Whatever the object, schedule and limits, `find_louvain_clustering` ends, after
at most `n_meta_iter_max + 1` meta loops. -/
theorem C30_meta_loops_bounded (sc : Sched) (par : Params K) (c : Clu K) :
    findLouvain sc par c ≠ .error .outOfSteps ∧
      ∀ k p, findLouvain sc par c = .ok (k, p) → k ≤ par.nMeta + 1 := by
  unfold findLouvain
  split
  · exact ⟨by simp, by simp⟩
  · split
    · rw [mk'_clusterList]
      refine ⟨by simp, fun k p h => ?_⟩
      simp at h
      omega
    · split
      · rename_i e he
        refine ⟨fun h => ?_, by simp⟩
        rw [Except.error.injEq] at h
        subst h
        exact mkClu_steps _ _ _ _ he
      · obtain ⟨h1, h2⟩ := metaLoop_steps sc par c.T c.S (par.nMeta + 3) 0 1 false c.part _ (by omega)
        refine ⟨h1, fun k p h => ?_⟩
        have := h2 k p h
        omega

/-! ### C54 -/

/-- **C54, violated.** A transition matrix with a zero row, which the constructor accepts,
makes `find_louvain_clustering` fail: the aggregated matrix has a row of NaN. -/
theorem C54_zero_row_fails :
    ∃ c : Clu ℚ, FreshDefault c ∧ rowSum c.n c.T 2 = 0 ∧ ∃ sc par,
      raised (findLouvain sc par c) = some .assertionError := by
  refine ⟨{ n := 3, T := fun i j => if i = 2 ∨ j = 2 then 0 else 1 / 2, S := exS,
            part := removeEmpty ⟨3, singletons 3, dictOf (singletons 3)⟩ }, ?_, by decide +kernel,
    exSched, exPar, by decide +kernel⟩
  unfold FreshDefault mkClu
  rw [if_pos (by decide +kernel)]
  rfl

end Verif.Louvain
