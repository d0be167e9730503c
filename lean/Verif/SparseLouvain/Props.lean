import Verif.SparseLouvain.Meta
import Verif.Louvain.Props
import Mathlib.Algebra.Field.Rat
import Mathlib.Algebra.Order.Ring.Rat
import Mathlib.Tactic.NormNum

/-!
# C69: Louvain clustering with sparse matrices
-/

set_option linter.unusedSectionVars false
set_option linter.unusedSimpArgs false
set_option linter.dupNamespace false

namespace Verif.SparseLouvain

open Verif.Partition Verif.Autocov Verif.Csr
open Verif.Louvain (Sched Params listSet updatePart Clu moveLoop moveNodes metaLoop pairStability
  stability mkClu findLouvain rowSum rowsOk sIsZero exSched exPar)

variable {K : Type} [Field K] [LinearOrder K] [IsStrictOrderedRing K]

/-- A dense problem with the same covariance and pattern: the stored matrix with rows scaled
to sum one. -/
theorem dense_exists {A : Autocov K} (f : Fit A) : ∃ T : Nat → Nat → K, Dense A A.toarray T ∧
    ∀ i < A.PT.nrows, 0 < rowSum A.PT.nrows T i :=
  ⟨A.PT.val, ⟨fun _ _ _ _ => rfl, fun i hi j _ => val_nonneg f.tight i j hi,
    fun _ _ _ _ => Iff.rfl⟩, fun i hi => by
      obtain ⟨j, hj, hp⟩ := row_pos f i hi
      exact Finset.sum_pos' (fun j _ => val_nonneg f.tight i j hi) ⟨j, Finset.mem_range.2 hj, hp⟩⟩

theorem fresh_part {c : SClu K} (h : Fresh c) : Consistent c.part ∧
    c.part.numNodes = c.A.PT.nrows ∧ c.part.clusters = singletons c.A.PT.nrows := by
  unfold Fresh mkS at h
  obtain ⟨q, hq, h1, h2, h3⟩ := Verif.Louvain.mk'_none c.A.PT.nrows false
  rw [hq] at h
  injection h with h
  rw [← h]
  exact ⟨h1, h2, h3⟩

theorem mkS_same {c : SClu K} (h : Fresh c) : mkS c.A (.clusterList c.part.clusters) = .ok c := by
  obtain ⟨h1, h2, h3⟩ := fresh_part h
  unfold mkS
  rw [Verif.Louvain.mk'_clusterList]
  have hqe : removeEmpty ⟨c.A.PT.nrows, c.part.clusters, dictOf c.part.clusters⟩ = c.part := by
    have := Verif.Louvain.removeEmpty_of_nonempty h1
      (by rw [h3]; exact Verif.Louvain.singletons_nonempty _)
    conv_rhs => rw [← this]
    unfold removeEmpty
    simp only [h2]
  rw [hqe]

/-- **C69.** The stability a sparse clustering reports is, for every stored covariance and
every valid partition, the sum of the covariance over all pairs of nodes in the same
cluster. -/
theorem C69_stability_exact (A : Autocov K) (p : Part) (h : Consistent p) :
    sStability A p = pairStability A.toarray p := by
  rw [sStability_eq]
  exact Verif.Louvain.stability_pair _ _ h.1

/-- **C69, partial.** If every row stores an entry and only positive numbers are stored, the
node-moving phase raises nothing, leaves a valid partition without empty clusters, reports a
nonnegative gain, and the gain is exactly the change of the stability.  Missing: rows without
stored entries, see the violation below. -/
theorem C69_phase_partial (sc : Sched) (m : Nat) (thr : K) (nSub : Nat) (c : SClu K)
    (f : Fit c.A) (h : Consistent c.part) (hn : c.part.numNodes = c.A.PT.nrows) :
    ∃ gain nLoop p', sMoveNodes sc m thr nSub c (nSub + 1) = .ok (gain, nLoop, p') ∧
      Consistent p' ∧ p'.numNodes = c.A.PT.nrows ∧ (∀ cl ∈ p'.clusters, cl.Nonempty) ∧ 0 ≤ gain ∧
      sStability c.A p' = sStability c.A c.part + gain := by
  obtain ⟨T, hd, _⟩ := dense_exists f
  obtain ⟨g, k, p', h1, h2, h3, h4, h5, h6⟩ := Verif.Louvain.C27_phase_exact sc m thr nSub
    ⟨c.A.PT.nrows, T, c.A.toarray, c.part⟩ h hn
  refine ⟨g, k, p', ?_, h2, h3, h4, h5, ?_⟩
  · have := sMoveNodes_eq (rel_base f.fit0 (Or.inl f.nonempty) (hd.dense0 f)) sc m thr nSub (nSub + 1) h hn
    rw [h1] at this
    exact this
  · rw [C69_stability_exact _ _ h2, C69_stability_exact _ _ h]
    exact h6

/-- **C69, partial.** Under the same conditions the whole search from the default partition
returns within its limits, leaves a valid partition of the nodes without empty clusters, and
its stability is at least that of the start, whenever the covariance is not found to be all
zeros. -/
theorem C69_no_worse_partial (sc : Sched) (par : Params K) (c : SClu K) (f : Fit c.A)
    (hfresh : Fresh c) (hz : c.A.isAllZeros = false) :
    ∃ k p, sFindLouvain sc par c = .ok (k, p) ∧ Consistent p ∧ p.numNodes = c.A.PT.nrows ∧
      (∀ cl ∈ p.clusters, cl.Nonempty) ∧ sStability c.A c.part ≤ sStability c.A p := by
  obtain ⟨T, hd, hT⟩ := dense_exists f
  obtain ⟨h1, h2, h3⟩ := fresh_part hfresh
  have hne : ∀ cl ∈ c.part.clusters, cl.Nonempty := by
    rw [h3]; exact Verif.Louvain.singletons_nonempty _
  have hlen : c.part.clusters.length = c.A.PT.nrows := by rw [h3]; simp [singletons]
  have heq := (sMetaLoop_eq f.fit0 False (Or.inl f.nonempty) (hd.dense0 f) False.elim sc par
    (par.nMeta + 3) 0 1 false c.part c
    ⟨c.A.PT.nrows, T, c.A.toarray, c.part⟩ h1 h2 hne False.elim
    (Or.inr ⟨rel_base f.fit0 (Or.inl f.nonempty) (hd.dense0 f), rfl, h1, h2, hlen.symm,
      False.elim⟩)).1
  obtain ⟨k, p, hkp⟩ := Verif.Louvain.metaLoop_total sc par T c.A.toarray (par.nMeta + 3) 0 1 false
    c.part ⟨c.A.PT.nrows, T, c.A.toarray, c.part⟩ h1 (by rw [h2]; exact f.pos) hne
    (Or.inr ⟨h1, h2, hlen.symm⟩) (by rw [h2]; exact hT) (by omega)
  obtain ⟨a, b, d, e⟩ := Verif.Louvain.metaLoop_spec sc par T c.A.toarray (par.nMeta + 3) 0 1 false
    c.part ⟨c.A.PT.nrows, T, c.A.toarray, c.part⟩ h1 (by rw [h2]; exact f.pos) hne
    (Or.inr ⟨h1, h2, hlen.symm, fun r hr hrc => Verif.Louvain.stability_congr _ _ hrc.1 (by
      intro i hi j hj
      simp only at hr
      rw [h3, Verif.Louvain.aggS_singletons c.A.toarray c.A.PT.nrows i j (by omega) (by omega)]),
      rfl⟩) k p hkp
  refine ⟨k, p, ?_, a, b.trans h2, e, ?_⟩
  · unfold sFindLouvain
    rw [hz, mkS_same hfresh]
    simp only [Bool.false_eq_true, if_false]
    rw [heq, hkp]
    rfl
  · rw [sStability_eq, sStability_eq]
    exact d

/-- **C69.** A covariance found to be all zeros gives the full partition at once. -/
theorem C69_all_zeros (sc : Sched) (par : Params K) (c : SClu K) (hz : c.A.isAllZeros = true)
    (hn : 0 < c.A.PT.nrows) :
    ∃ p, sFindLouvain sc par c = .ok (0, p) ∧ Consistent p ∧ p.numNodes = c.A.PT.nrows ∧
      ∀ u < c.A.PT.nrows, ∀ v < c.A.PT.nrows, Together p.clusters u v := by
  unfold sFindLouvain
  rw [hz, Verif.Louvain.mk'_clusterList]
  refine ⟨_, rfl, consistent_removeEmpty (Verif.Louvain.isPartition_full _), rfl, ?_⟩
  intro u hu v hv
  have hcl : (removeEmpty ⟨c.A.PT.nrows, [Finset.range c.A.PT.nrows],
      dictOf [Finset.range c.A.PT.nrows]⟩).clusters = [Finset.range c.A.PT.nrows] := by
    unfold removeEmpty
    dsimp only
    rw [List.filter_cons_of_pos (by simpa using hn), List.filter_nil]
  rw [hcl]
  exact ⟨0, ⟨_, rfl, Finset.mem_range.2 hu⟩, ⟨_, rfl, Finset.mem_range.2 hv⟩⟩

/-- **C69, partial.** Sparse and dense clustering of the same problem: for every stored
covariance with positive entries and no empty row, every dense covariance with the same
values and every accepted dense transition matrix with the same pattern, if the two tests for
an all-zero covariance agree, the two searches from the default partition with the same
random orders return the same number of loops and the same partition. -/
theorem C69_same_as_dense_partial (sc : Sched) (par : Params K) (A : Autocov K) (f : Fit A)
    (S T : Nat → Nat → K) (d : Dense A S T)
    (hz : A.isAllZeros = true ↔ sIsZero A.PT.nrows S)
    (c : SClu K) (hc : mkS A .none = .ok c) (dc : Clu K)
    (hdc : mkClu A.PT.nrows T S .none = .ok dc) :
    sFindLouvain sc par c = lift (findLouvain sc par dc) ∧
      sStability c.A c.part = stability dc.S dc.part := by
  have hcA : c.A = A := by
    unfold mkS at hc
    split at hc
    · simp at hc
    · injection hc with hc
      rw [← hc]
  have hfresh : Fresh c := by unfold Fresh; rw [hcA]; exact hc
  subst hcA
  obtain ⟨h1, h2, h3⟩ := fresh_part hfresh
  have hne : ∀ cl ∈ c.part.clusters, cl.Nonempty := by
    rw [h3]; exact Verif.Louvain.singletons_nonempty _
  have hlen : c.part.clusters.length = c.A.PT.nrows := by rw [h3]; simp [singletons]
  have hcc := hc
  unfold mkS at hcc
  unfold mkClu at hdc
  split at hdc
  · rename_i hrows
    split at hcc
    · simp at hcc
    · rename_i q hq
      rw [hq] at hdc
      injection hdc with hdc
      injection hcc with hcc
      have hqp : q = c.part := by rw [← hcc]
      subst hqp
      subst hdc
      have heq := (sMetaLoop_eq f.fit0 False (Or.inl f.nonempty) (d.dense0 f) False.elim sc par
        (par.nMeta + 3) 0 1 false c.part c
        ⟨c.A.PT.nrows, T, S, c.part⟩ h1 h2 hne False.elim (Or.inr ⟨rel_base f.fit0
          (Or.inl f.nonempty) (d.dense0 f), rfl, h1, h2, hlen.symm, False.elim⟩)).1
      constructor
      · unfold sFindLouvain findLouvain
        dsimp only
        rw [if_neg (show ¬ c.A.PT.nrows = 0 from by have := f.pos; omega)]
        by_cases hs : sIsZero c.A.PT.nrows S
        · rw [if_pos hs, hz.2 hs, Verif.Louvain.mk'_clusterList]
          rfl
        · have hza : c.A.isAllZeros = false := by
            rw [← Bool.not_eq_true]
            exact fun h => hs (hz.1 h)
          rw [if_neg hs, hza, mkS_same hfresh]
          have hm : mkClu c.A.PT.nrows T S (.clusterList c.part.clusters)
              = .ok ⟨c.A.PT.nrows, T, S, c.part⟩ := by
            have := mkS_same hfresh
            unfold mkS at this
            unfold mkClu
            rw [if_pos hrows]
            split at this
            · simp at this
            · rename_i q hq
              injection this with this
              rw [hq, ← this]
          rw [hm]
          simp only [Bool.false_eq_true, if_false]
          exact heq
      · rw [sStability_eq]
        exact Verif.Louvain.stability_congr _ _ h1.1 (by
          intro i hi j hj
          rw [h2] at hi hj
          exact d.cov i hi j hj)
  · simp at hdc

/-- **C69, partial.** The same for a clustering built from a sparse transition matrix: rows
sum to one, stored entries are positive and not repeated, starting probabilities are positive
and sum to one.  `SparseClustering(T, p1)` and `Clustering(T.toarray(), p1)` find the same
partition. -/
theorem C69_from_transitions_partial (sc : Sched) (par : Params K) (T : Csr K) (p1 : Nat → K)
    (hT : T.WF) (hsq : T.ncols = T.nrows) (hn : 0 < T.nrows) (hr : T.NoRepeats)
    (hpos : ∀ i < T.nrows, ∀ e ∈ T.row i, 0 < e.2)
    (hsum : ∀ i < T.nrows, ∑ j ∈ Finset.range T.nrows, T.val i j = 1)
    (hp : ∀ i < T.nrows, 0 < p1 i) (hp1 : ∑ i ∈ Finset.range T.nrows, p1 i = 1)
    (hz : (fromT T (some p1) none).isAllZeros = true ↔ sIsZero T.nrows fun i j =>
      p1 i * T.val i j - p1 i * ∑ a ∈ Finset.range T.nrows, p1 a * T.val a j) :
    ∃ c dc, mkS (fromT T (some p1) none) .none = .ok c ∧
      mkClu T.nrows T.val (fun i j =>
        p1 i * T.val i j - p1 i * ∑ a ∈ Finset.range T.nrows, p1 a * T.val a j) .none = .ok dc ∧
      sFindLouvain sc par c = lift (findLouvain sc par dc) := by
  have hnr : (fromT T (some p1) none).PT.nrows = T.nrows := by
    show (sortIndices (diagMatmul T p1)).nrows = _
    rw [nrows_sortIndices, diagMatmul, nrows_mapVals]
  have hwf := wf_diagMatmul hT p1
  have hval : ∀ i < T.nrows, ∀ j, (fromT T (some p1) none).PT.val i j = T.val i j * p1 i := by
    intro i hi j
    show (sortIndices (diagMatmul T p1)).val i j = _
    rw [val_sortIndices hwf _ _ (by rw [diagMatmul, nrows_mapVals]; exact hi),
      val_diagMatmul _ _ _ _ hi]
  have hrowne : ∀ i < T.nrows, T.row i ≠ [] := by
    intro i hi he
    have := hsum i hi
    unfold Csr.val at this
    rw [he] at this
    simp [sumAt] at this
  have hrows' : ∀ i < T.nrows, ∀ e ∈ (diagMatmul T p1).row i, 0 < e.2 := by
    intro i hi e he
    rw [diagMatmul, row_mapVals _ _ _ hi, List.mem_map] at he
    obtain ⟨g, hg, rfl⟩ := he
    exact mul_pos (hpos i hi g hg) (hp i hi)
  have hTnn : ∀ i < T.nrows, ∀ j, 0 ≤ T.val i j := by
    intro i hi j
    unfold Csr.val sumAt
    apply list_sum_nonneg
    intro x hx
    rw [List.mem_map] at hx
    obtain ⟨g, hg, rfl⟩ := hx
    exact (hpos i hi g (List.mem_filter.1 hg).1).le
  have hfit : Fit (fromT T (some p1) none) := by
    refine ⟨good_fromT T hT hsq hr _ _, ?_, ?_, ?_, by rw [hnr]; exact hn, ?_⟩
    · intro h
      simp [fromT, mkAutocov] at h
    · rw [hnr]
      refine ⟨hp1, ?_⟩
      show ∑ j ∈ Finset.range T.nrows, vecMat p1 T j = 1
      rw [sum_vecMat T p1 hsum, hp1]
    · exact tight_mk _ _ _ hwf (by rw [diagMatmul, nrows_mapVals, ncols_mapVals, hsq])
        (by rw [diagMatmul, nrows_mapVals]; exact hrows')
    · rw [hnr]
      intro i hi he
      have h1 : 0 < ∑ j ∈ Finset.range T.nrows, (fromT T (some p1) none).PT.val i j := by
        have : ∑ j ∈ Finset.range T.nrows, (fromT T (some p1) none).PT.val i j = p1 i := by
          rw [Finset.sum_congr rfl fun j _ => hval i hi j, ← Finset.sum_mul, hsum i hi, one_mul]
        rw [this]
        exact hp i hi
      unfold Csr.val at h1
      rw [he] at h1
      simp [sumAt] at h1
  obtain ⟨q, hq, _⟩ := Verif.Louvain.mk'_none T.nrows false
  have hc : mkS (fromT T (some p1) none) .none = .ok ⟨fromT T (some p1) none, q⟩ := by
    unfold mkS
    rw [hnr, hq]
  have hdc : mkClu T.nrows T.val (fun i j =>
      p1 i * T.val i j - p1 i * ∑ a ∈ Finset.range T.nrows, p1 a * T.val a j) .none =
      .ok ⟨T.nrows, T.val, fun i j =>
        p1 i * T.val i j - p1 i * ∑ a ∈ Finset.range T.nrows, p1 a * T.val a j, q⟩ := by
    unfold mkClu
    rw [if_pos, hq]
    intro i hi
    left
    unfold rowSum
    rw [hsum i hi]
    exact Verif.Louvain.isclose_self 1
  refine ⟨_, _, hc, hdc, ?_⟩
  refine (C69_same_as_dense_partial sc par (fromT T (some p1) none) hfit _ T.val ?_
    (by rw [hnr]; exact hz) _ hc _ (by rw [hnr]; exact hdc)).1
  constructor
  · intro i hi j _
    rw [hnr] at hi
    rw [toarray_fromT T hT _ _ i j hi]
    rfl
  · intro i hi j _
    rw [hnr] at hi
    exact hTnn i hi j
  · intro i hi j _
    rw [hnr] at hi
    rw [hval i hi j]
    exact (mul_pos_iff_of_pos_right (hp i hi)).symm

/-! ### Examples -/

/-- Three nodes; the first two exchange walkers, the third keeps its own. -/
def exT : Csr ℚ := ofRows 3 [[(0, 1 / 2), (1, 1 / 2)], [(0, 1 / 4), (1, 3 / 4)], [(2, 1)]]

/-- Equal starting probabilities. -/
def exP : Nat → ℚ := fun _ => 1 / 3

/-- Non-vacuity of `C69_from_transitions_partial`. -/
example : exT.WF ∧ exT.ncols = exT.nrows ∧ 0 < exT.nrows ∧ exT.NoRepeats ∧
    (∀ i < exT.nrows, ∀ e ∈ exT.row i, 0 < e.2) ∧
    (∀ i < exT.nrows, ∑ j ∈ Finset.range exT.nrows, exT.val i j = 1) ∧
    (∀ i < exT.nrows, 0 < exP i) ∧ ∑ i ∈ Finset.range exT.nrows, exP i = 1 ∧
    ((fromT exT (some exP) none).isAllZeros = true ↔ sIsZero exT.nrows fun i j =>
      exP i * exT.val i j - exP i * ∑ a ∈ Finset.range exT.nrows, exP a * exT.val a j) := by
  refine ⟨wf_ofRows _ _ (by decide +kernel), by decide, by decide, by unfold Csr.NoRepeats; decide +kernel,
    by decide +kernel, by decide +kernel, by decide +kernel, by decide +kernel, by decide +kernel⟩

/-- The covariance of the example. -/
def exA : Autocov ℚ := fromT exT (some exP) none

/-- Non-vacuity of the other theorems: the conditions on the stored covariance. -/
example : Fit exA ∧ exA.isAllZeros = false ∧ Dense exA exA.toarray exT.val ∧
    Verif.Louvain.rowsOk exA.PT.nrows exT.val := by
  refine ⟨⟨good_fromT exT (wf_ofRows _ _ (by decide +kernel)) (by decide)
      (by unfold Csr.NoRepeats; decide +kernel) _ _,
      fun h => absurd h (by decide), ⟨by decide +kernel, by decide +kernel⟩,
      ⟨by decide +kernel, by decide +kernel⟩, by decide +kernel, by decide +kernel⟩,
    by decide +kernel, ⟨fun _ _ _ _ => rfl, by decide +kernel, by decide +kernel⟩, by decide +kernel⟩

/-- Two nodes, nobody leaves the first (an empty row); the second sends two fifths to it. -/
def badA : Autocov ℚ :=
  fromT (ofRows 2 [[], [(0, 2 / 5), (1, 3 / 5)]]) (some fun _ => 1 / 2) (some fun _ => 1 / 2)

/-- What a search returns: number of loops, clusters as sorted lists, stability. -/
def outcome (A : Autocov ℚ) (r : Except SErr (Nat × Part)) : Option (Nat × List (List Nat) × ℚ) :=
  match r with
  | .ok (k, p) => some (k, p.clusters.map listSet, sStability A p)
  | .error _ => none

/-- **C69, the condition on rows is needed.** With a row without stored entries the search
accepts a move that lowers the stability, and returns a partition that is worse than the
start. -/
theorem C69_empty_row_violated : ∃ (sc : Sched) (par : Params ℚ) (c : SClu ℚ) (k : Nat) (p : Part),
    Good c.A ∧ Normalised c.A.PT.nrows c.A.w ∧ Fresh c ∧ c.A.isAllZeros = false ∧
      sFindLouvain sc par c = .ok (k, p) ∧ sStability c.A p < sStability c.A c.part := by
  have hz : badA.isAllZeros = false := by decide +kernel
  have hw : Normalised badA.PT.nrows badA.w := ⟨by decide +kernel, by decide +kernel⟩
  obtain ⟨q, hq, _⟩ := Verif.Louvain.mk'_none badA.PT.nrows false
  have hfresh : mkS badA .none = .ok ⟨badA, q⟩ := by unfold mkS; rw [hq]
  have hout : (match mkS badA .none with
      | .ok c => outcome badA (sFindLouvain exSched exPar c)
      | .error _ => none) = some (2, [[0, 1]], -1 / 2) := by decide +kernel
  have hstart : (match mkS badA .none with
      | .ok c => some (sStability badA c.part)
      | .error _ => none) = some (-1 / 5) := by decide +kernel
  rw [hfresh] at hout hstart
  simp only at hout hstart
  injection hstart with hstart
  match hr : sFindLouvain exSched exPar ⟨badA, q⟩ with
  | .error e => rw [hr] at hout; simp [outcome] at hout
  | .ok (k, p) =>
    rw [hr] at hout
    simp only [outcome, Option.some.injEq, Prod.mk.injEq] at hout
    refine ⟨exSched, exPar, ⟨badA, q⟩, k, p, ?_, hw, hfresh, hz, hr, ?_⟩
    · exact good_fromT _ (wf_ofRows _ _ (by decide +kernel)) (by decide)
        (by unfold Csr.NoRepeats; decide +kernel) _ _
    · rw [hout.2.2, hstart]
      norm_num

end Verif.SparseLouvain
